import Verif.Proofs.Live
import Verif.Proofs.SatSide

/-! Variable elimination: extension of models to eliminated variables. -/

namespace Candy

variable {F G : CNF} {V : Nat → Prop} {s s' : SDB} {n : Nat}

/-! ### Extension of an assignment to one variable -/

theorem litOf_pos {v : Nat} {c : Clause} (hnd : (c.map Lit.var).Nodup) {l : Lit} (hl : l ∈ c)
    (hv : l.var = v) : litOf v c = some l := by
  unfold litOf
  cases h : c.find? (fun l => l.var == v) with
  | none =>
    have := List.find?_eq_none.1 h l hl
    simp [hv] at this
  | some m =>
    have h1 := List.mem_of_find?_eq_some h
    have h2 := List.find?_some h
    simp at h2
    rw [var_inj hnd h1 hl (h2.trans hv.symm)]

theorem satisfies_iff {T : Trail} {l : Lit} : T.satisfies l = true ↔ l.trueIn T.assigns := by
  unfold Trail.satisfies Lit.trueIn Trail.value
  cases h : T.assigns l.var with
  | none => simp
  | some b => cases b <;> cases l.sign <;> simp

/-- What one step of model extension does. -/
structure ExtStep (T T' : Trail) (v : Nat) : Prop where
  assigns : ∃ b, T'.assigns = upd T.assigns v (some b)
  model : modelOf T = T.assigns → modelOf T' = T'.assigns

theorem ExtStep.setValue (T : Trail) {l : Lit} {v : Nat} (h : l.var = v) : ExtStep T (T.setValue l) v where
  assigns := ⟨!l.sign, by subst h; rfl⟩
  model hm := by rw [modelOf_setValue, hm]; rfl

theorem trueIn_upd_ne {a : PAssign} {v : Nat} {b : Bool} {l : Lit} (h : l.var ≠ v)
    (ht : l.trueIn a) : l.trueIn (upd a v (some b)) := by
  unfold Lit.trueIn at *
  rw [upd_ne _ _ h]; exact ht

/-- `propagate_eliminated_variables` for one variable satisfies all stored clauses of the variable when
all other variables are assigned and the resolvents are satisfied. -/
theorem extendVar_spec {T : Trail} {v : Nat} {cs : List Clause} (hne : cs ≠ [])
    (hv : T.assigns v = none)
    (hnd : ∀ c ∈ cs, (c.map Lit.var).Nodup)
    (hmem : ∀ c ∈ cs, ∃ l ∈ c, l.var = v)
    (hass : ∀ c ∈ cs, ∀ l ∈ c, l.var ≠ v → T.assigns l.var ≠ none)
    (hres : ∀ c ∈ cs, ∀ d ∈ cs, ∀ l ∈ c, l.var = v → l.neg ∈ d →
      (∃ x ∈ c, x.var ≠ v ∧ x.neg ∈ d) ∨ ∃ x, (x ∈ c ∨ x ∈ d) ∧ x.var ≠ v ∧ x.trueIn T.assigns) :
    ∃ T', extendVar T v cs = some T' ∧ ExtStep T T' v ∧ PSat T'.assigns cs := by
  have hlit : ∀ c ∈ cs, ∃ l ∈ c, l.var = v ∧ litOf v c = some l := by
    intro c hc
    obtain ⟨l, h1, h2⟩ := hmem c hc
    exact ⟨l, h1, h2, litOf_pos (hnd c hc) h1 h2⟩
  -- a clause satisfied before stays satisfied
  have keep : ∀ (l : Lit), l.var = v → ∀ c : Clause, (∃ x ∈ c, x.trueIn T.assigns) →
      ∃ x ∈ c, x.trueIn (T.setValue l).assigns := by
    rintro l hl c ⟨x, hx, ht⟩
    refine ⟨x, hx, ?_⟩
    have hxv : x.var ≠ v := by
      intro e; unfold Lit.trueIn at ht; rw [e, hv] at ht; simp at ht
    subst hl
    exact trueIn_upd_ne hxv ht
  have self : ∀ (l : Lit), l.trueIn (T.setValue l).assigns := by
    intro l; unfold Lit.trueIn; simp [Trail.setValue]
  unfold extendVar
  cases hf : cs.find? (fun c => !c.any fun l => T.satisfies l) with
  | some c =>
    have hc := List.mem_of_find?_eq_some hf
    have hns := List.find?_some hf
    have hns : ∀ x ∈ c, ¬ x.trueIn T.assigns := by
      intro x hx ht
      have h1 := satisfies_iff.2 ht
      have : (c.any fun l => T.satisfies l) = true := List.any_eq_true.2 ⟨x, hx, h1⟩
      simp [this] at hns
    obtain ⟨l, h1, h2, h3⟩ := hlit c hc
    simp only [h3]
    refine ⟨_, rfl, ExtStep.setValue T h2, ?_⟩
    intro d hd
    obtain ⟨m, k1, k2, _⟩ := hlit d hd
    rcases Lit.eq_or_neg_of_var (k2.trans h2.symm) with e | e
    · subst e; exact ⟨m, k1, self m⟩
    · subst e
      refine keep l h2 d ?_
      rcases hres c hc d hd l h1 h2 k1 with ⟨x, x1, x2, x3⟩ | ⟨x, x1, _, x3⟩
      · refine ⟨x.neg, x3, ?_⟩
        have hx := hns x x1
        have hx' := hass c hc x x1 x2
        unfold Lit.trueIn at hx ⊢
        simp only [Lit.neg]
        cases h : T.assigns x.var with
        | none => exact (hx' h).elim
        | some b =>
          rw [h] at hx
          cases hb : x.sign <;> cases b <;> simp_all
      · rcases x1 with x1 | x1
        · exact (hns x x1 x3).elim
        · exact ⟨x, x1, x3⟩
  | none =>
    have hall : ∀ c ∈ cs, ∃ x ∈ c, x.trueIn T.assigns := by
      intro c hc
      have := List.find?_eq_none.1 hf c hc
      simp only [Bool.not_eq_true', Bool.not_eq_false, List.any_eq_true] at this
      obtain ⟨x, hx, ht⟩ := this
      exact ⟨x, hx, satisfies_iff.1 ht⟩
    simp only
    unfold extendVar.extendDefault
    match cs, hne with
    | c :: cs', _ =>
      simp only
      obtain ⟨l, h1, h2, h3⟩ := hlit c (by simp)
      rw [h3]
      simp only
      exact ⟨_, rfl, ExtStep.setValue T (by simpa using h2),
        fun d hd => keep l.neg (by simpa using h2) d (hall d hd)⟩

/-! ### Reconstruction -/

/-- Every assignment to the remaining variables that satisfies `C` extends to a model of `G`. -/
structure Recon (G : CNF) (n : Nat) (elim : List Nat) (cls : Nat → List Clause) (C : CNF) : Prop where
  distinct : elim.Nodup
  stored : ∀ v ∈ elim, v < n ∧ cls v ≠ []
  ext : ∀ T : Trail, (∀ v ∈ elim, T.assigns v = none) → (∀ v < n, v ∉ elim → T.assigns v ≠ none) →
    PSat T.assigns C →
    ∃ T', extendModel cls elim.reverse T = some T' ∧ PSat T'.assigns G ∧
      (modelOf T = T.assigns → modelOf T' = T'.assigns) ∧
      (∀ v, v ∉ elim → T'.assigns v = T.assigns v) ∧ (∀ v < n, T'.assigns v ≠ none)

theorem Recon.refl (C : CNF) (cls : Nat → List Clause) : Recon C n [] cls C := by
  refine ⟨by simp, by simp, ?_⟩
  intro T _ h2 h3
  exact ⟨T, rfl, h3, id, fun _ _ => rfl, fun v hv => h2 v hv (by simp)⟩

theorem Recon.refine {elim : List Nat} {cls : Nat → List Clause} {C C' : CNF} (h : Recon G n elim cls C)
    (hr : Refines C C') : Recon G n elim cls C' :=
  ⟨h.distinct, h.stored, fun T h1 h2 h3 => h.ext T h1 h2 (hr.psat h3)⟩

theorem extendModel_congr {cls cls' : Nat → List Clause} : ∀ (vs : List Nat) (T : Trail),
    (∀ v ∈ vs, cls' v = cls v) → extendModel cls' vs T = extendModel cls vs T
  | [], _, _ => rfl
  | v :: vs, T, h => by
    rw [extendModel, extendModel, h v (by simp)]
    cases extendVar T v (cls v) with
    | none => rfl
    | some T1 => exact extendModel_congr vs T1 (fun w hw => h w (by simp [hw]))

/-- Elimination of one variable. -/
theorem Recon.step {elim : List Nat} {cls : Nat → List Clause} {C C' : CNF} {v : Nat}
    {S : List Clause} (h : Recon G n elim cls C) (hv : v ∉ elim) (hvn : v < n) (hS : S ≠ [])
    (hnd : ∀ c ∈ S, (c.map Lit.var).Nodup) (hmem : ∀ c ∈ S, ∃ l ∈ c, l.var = v)
    (hvars : ∀ c ∈ S, ∀ l ∈ c, l.var < n ∧ l.var ∉ elim)
    (hres : ∀ c ∈ S, ∀ d ∈ S, ∀ l ∈ c, l.var = v → l.neg ∈ d →
      (∃ x ∈ c, x.var ≠ v ∧ x.neg ∈ d) ∨
      ∃ r ∈ C', ∀ x ∈ r, (x ∈ c ∨ x ∈ d) ∧ x.var ≠ v)
    (hrest : ∀ c ∈ C, c ∈ S ∨ (c ∈ C' ∧ ∀ l ∈ c, l.var ≠ v)) :
    Recon G n (elim ++ [v]) (upd cls v S) C' := by
  refine ⟨?_, ?_, ?_⟩
  · rw [List.nodup_append]
    refine ⟨h.distinct, by simp, ?_⟩
    rintro a ha b hb rfl
    simp at hb; subst hb; exact hv ha
  · intro w hw
    by_cases e : w = v
    · subst e; exact ⟨hvn, by rw [upd_same]; exact hS⟩
    · rw [upd_ne _ _ e]
      exact h.stored w (by simpa [e] using hw)
  intro T h1 h2 h3
  obtain ⟨T1, e1, e2, e3⟩ := extendVar_spec (T := T) (v := v) hS (h1 v (by simp)) hnd hmem
    (by
      intro c hc l hl hlv
      obtain ⟨k1, k2⟩ := hvars c hc l hl
      exact h2 _ k1 (by simp [k2, hlv]))
    (by
      intro c hc d hd l hl hlv hln
      rcases hres c hc d hd l hl hlv hln with h | ⟨r, hr, hx⟩
      · exact Or.inl h
      · right
        obtain ⟨x, x1, x2⟩ := h3 r hr
        exact ⟨x, (hx x x1).1, (hx x x1).2, x2⟩)
  obtain ⟨b, hb⟩ := e2.assigns
  have hne : ∀ w, w ≠ v → T1.assigns w = T.assigns w := fun w hw => by rw [hb, upd_ne _ _ hw]
  have hvv : T1.assigns v = some b := by rw [hb]; exact if_pos rfl
  have hs1 : PSat T1.assigns C := by
    intro c hc
    rcases hrest c hc with h | ⟨h, hcv⟩
    · exact e3 c h
    · obtain ⟨x, x1, x2⟩ := h3 c h
      refine ⟨x, x1, ?_⟩
      rw [hb]; exact trueIn_upd_ne (hcv x x1) x2
  obtain ⟨T', k1, k2, k3, k4, k5⟩ := h.ext T1
    (fun w hw => by rw [hne w (fun e => hv (e ▸ hw))]; exact h1 w (by simp [hw]))
    (fun w hw hwe => by
      by_cases hwv : w = v
      · subst hwv; rw [hvv]; simp
      · rw [hne w hwv]; exact h2 w hw (by simp [hwe, hwv])) hs1
  refine ⟨T', ?_, k2, fun hm => k3 (e2.model hm), ?_, k5⟩
  · rw [List.reverse_append]
    simp only [List.reverse_cons, List.reverse_nil, List.nil_append, List.singleton_append]
    rw [extendModel, show upd cls v S v = S from if_pos rfl, e1]
    simp only
    rw [extendModel_congr, k1]
    intro w hw
    exact upd_ne _ _ (fun e => hv (e ▸ List.mem_reverse.1 hw))
  · intro w hw
    simp only [List.mem_append, List.mem_singleton, not_or] at hw
    rw [k4 w hw.1, hne w hw.2]

/-! ### The elimination loops -/

theorem createResolvents_live {v : Nat} : ∀ (ps : List (Nat × Nat)) (s : SDB), SOk F s → LOk V s →
    ResPairs v s.db ps → (∀ p ∈ ps, (s.db.store p.1).weight = 0) →
    LOk V (createResolvents v ps s) ∧
    (∀ d, LiveId s.db d → LiveId (createResolvents v ps s).db d) ∧
    (∀ d, LiveId (createResolvents v ps s).db d → LiveId s.db d ∨
      ∃ p ∈ ps, merge (s.db.lits p.1) (s.db.lits p.2) v =
        some ((createResolvents v ps s).db.lits d)) ∧
    (∀ p ∈ ps, ∀ r, merge (s.db.lits p.1) (s.db.lits p.2) v = some r →
      ∃ d, LiveId (createResolvents v ps s).db d ∧ (createResolvents v ps s).db.lits d = r) ∧
    (∀ i c : Nat, s.obj[i]? = some (some c) →
      (createResolvents v ps s).obj[i]? = some (some c))
  | [], s, hs, h, _, _ => by
    simp only [createResolvents]
    exact ⟨h, fun _ h => h, fun _ h => Or.inl h, by simp, fun _ _ h => h⟩
  | (p, q) :: ps, s, hs, h, hp, hw => by
    have hp' : ResPairs v s.db ps := fun x hx => hp x (by simp [hx])
    have hw' : ∀ x ∈ ps, (s.db.store x.1).weight = 0 := fun x hx => hw x (by simp [hx])
    rw [createResolvents]
    cases hm : merge (s.db.lits p) (s.db.lits q) v with
    | none =>
      simp only
      obtain ⟨a1, a2, a3, a4, a5⟩ := createResolvents_live ps s hs h hp' hw'
      refine ⟨a1, a2, ?_, ?_, a5⟩
      · intro d hd
        rcases a3 d hd with h | ⟨x, hx, hx'⟩
        · exact Or.inl h
        · exact Or.inr ⟨x, by simp [hx], hx'⟩
      · intro x hx r hr
        rcases List.mem_cons.1 hx with rfl | hx
        · simp only at hr; rw [hm] at hr; simp at hr
        · exact a4 x hx r hr
    | some r =>
      simp only
      obtain ⟨p1, p2, p3, p4⟩ := hp (p, q) (by simp)
      simp only at p1 p2 p3 p4
      have hl0 : min (min (s.db.store p).weight (s.db.store q).weight) ((r.length - 1) % 65536) = 0 := by
        have := hw (p, q) (by simp)
        simp only at this
        rw [this]; simp
      rw [hl0]
      obtain ⟨m1, m2⟩ := merge_some (hs.db.nd p p1) (hs.db.nd q p2) hm
      have hs1 : SOk F (s.create r) := hs.create
        (by
          intro l hl
          rcases ((m1 l).1 hl).1 with h | h
          · exact hs.db.wf p p1 l h
          · exact hs.db.wf q p2 l h) m2
        (entails_resolvent (hs.db.nd p p1) (hs.db.nd q p2) hm p3 p4 (hs.db.ent p p1) (hs.db.ent q p2))
      have hL := create_live s r
      have hlit : ∀ d < s.db.next, (s.create r).db.lits d = s.db.lits d := by
        intro d hd; rw [hL.2, if_neg (by omega)]
      have hx1 : DBExt s.db (s.create r).db := DBExt.create ..
      obtain ⟨a1, a2, a3, a4, a5⟩ := createResolvents_live ps (s.create r) hs1 (h.create hs r)
        (by
          intro x hx
          obtain ⟨b1, b2, b3, b4⟩ := hp' x hx
          refine ⟨Nat.lt_of_lt_of_le b1 hx1.next, Nat.lt_of_lt_of_le b2 hx1.next, ?_, ?_⟩
          · rw [hlit _ b1]; exact b3
          · rw [hlit _ b2]; exact b4)
        (by
          intro x hx
          rw [create_db, createClause_store, upd_ne _ _ (by have := (hp' x hx).1; omega)]
          exact hw' x hx)
      obtain ⟨_, hx2⟩ := createResolvents_sound (v := v) ps (s.create r) hs1
        (by
          intro x hx
          obtain ⟨b1, b2, b3, b4⟩ := hp' x hx
          refine ⟨Nat.lt_of_lt_of_le b1 hx1.next, Nat.lt_of_lt_of_le b2 hx1.next, ?_, ?_⟩
          · rw [hlit _ b1]; exact b3
          · rw [hlit _ b2]; exact b4)
      have hnew : (createResolvents v ps (s.create r)).db.lits s.db.next = r := by
        rw [hx2.lits s.db.next (by rw [create_db, createClause_next]; omega), hL.2, if_pos rfl]
      refine ⟨a1, ?_, ?_, ?_, ?_⟩
      · intro d hd
        exact a2 d ((hL.1 d).2 (Or.inl hd))
      · intro d hd
        rcases a3 d hd with h1 | ⟨x, hx, hx'⟩
        · rcases (hL.1 d).1 h1 with h1 | rfl
          · exact Or.inl h1
          · right
            exact ⟨(p, q), by simp, by rw [hnew]; exact hm⟩
        · right
          obtain ⟨b1, b2, _, _⟩ := hp' x hx
          exact ⟨x, by simp [hx], by rw [← hlit _ b1, ← hlit _ b2]; exact hx'⟩
      · intro x hx r' hr'
        rcases List.mem_cons.1 hx with rfl | hx
        · simp only at hr'
          rw [hm] at hr'
          simp at hr'; subst hr'
          exact ⟨s.db.next, a2 _ ((hL.1 _).2 (Or.inr rfl)), hnew⟩
        · obtain ⟨b1, b2, _, _⟩ := hp' x hx
          exact a4 x hx r' (by rw [hlit _ b1, hlit _ b2]; exact hr')
      · intro i c hi
        refine a5 i c ?_
        rw [create_obj, List.getElem?_append_left (List.getElem?_eq_some_iff.1 hi).1]
        exact hi

theorem removeAll_live : ∀ (is : List Nat) (s : SDB), LOk V s → ∀ s', removeAll is s = some s' →
    LOk V s' ∧ (∀ d, s'.db.lits d = s.db.lits d) ∧
    (∀ d, LiveId s'.db d ↔ LiveId s.db d ∧ ∀ i ∈ is, s.obj[i]? ≠ some (some d))
  | [], s, h, s', he => by
    simp [removeAll] at he; subst he; exact ⟨h, fun _ => rfl, by simp⟩
  | i :: is, s, h, s', he => by
    rw [removeAll] at he
    split at he
    · simp at he
    · rename_i s1 hs1
      obtain ⟨c, hc, e⟩ := remove_eq hs1
      obtain ⟨k1, k2⟩ := remove_live hs1 hc
      obtain ⟨a1, a2, a3⟩ := removeAll_live is s1 (h.remove hs1) s' he
      refine ⟨a1, fun d => (a2 d).trans (k2 d), fun d => ?_⟩
      rw [a3, k1]
      constructor
      · rintro ⟨⟨b1, b2⟩, b3⟩
        refine ⟨b1, fun j hj hjd => ?_⟩
        rcases List.mem_cons.1 hj with rfl | hj
        · exact b2 (Option.some.inj (Option.some.inj (hjd.symm.trans hc)))
        · refine b3 j hj ?_
          rw [e]
          simp only [List.getElem?_set]
          rw [if_neg]
          · exact hjd
          · rintro rfl
            exact b2 (Option.some.inj (Option.some.inj (hjd.symm.trans hc)))
      · rintro ⟨b1, b2⟩
        refine ⟨⟨b1, ?_⟩, fun j hj hjd => ?_⟩
        · rintro rfl
          exact b2 i (by simp) hc
        · rw [e] at hjd
          rcases set_obj hjd with ⟨_, h2⟩ | ⟨_, h2⟩
          · simp at h2
          · exact b2 j (by simp [hj]) h2

/-- Invariant of elimination. -/
structure EOk (G : CNF) (F : CNF) (V : Nat → Prop) (st : VES) : Prop where
  ok : SOk F st.s
  live : LOk V st.s
  clean : ∀ c, LiveId st.s.db c → ∀ l ∈ st.s.db.lits c, l.var ∉ st.ve.vars
  cls : ∀ v, v ∉ st.ve.vars → st.ve.cls v = []
  dec : ∀ v, v < st.s.db.nVars → (st.T.decision v = true ↔ v ∉ st.ve.vars)
  recon : Recon G st.s.db.nVars st.ve.vars st.ve.cls st.s.db.cnf

theorem EOk.eliminateStep {lim : Nat} {st : VES} {v : Nat} (h : EOk G F V st)
    (hve : VEOk F st.s.db.nVars st.ve) (hV : V v → st.T.assigns v ≠ none) (hvn : v < st.s.db.nVars)
    {st' : VES} {b : Bool}
    (he : eliminateStep lim st v = some (st', b)) :
    EOk G F V st' ∧ st'.T.assigns = st.T.assigns ∧ st'.s.db.nVars = st.s.db.nVars ∧
      VEOk F st'.s.db.nVars st'.ve ∧
      (∀ w ∈ st.ve.vars, w ∈ st'.ve.vars) ∧ (∀ w ∈ st'.ve.vars, w ∈ st.ve.vars ∨ (w = v ∧ st.T.assigns v = none)) := by
  obtain ⟨z1, z2, z3, z4, z5⟩ := eliminateStep_sound h.ok hve he
  rw [Candy.eliminateStep] at he
  split at he
  · rename_i hvnone
    have hVv : ¬ V v := fun hh => hV hh hvnone
    split at he
    · simp at he
    · rename_i os hos
      have hocc := occsOf_filter h.ok hos
      obtain ⟨o1, o2, o3⟩ := liveOcc_spec _ _ hos
      have hund : ∀ l : Lit, (⟨v, false⟩ : Lit) = pos v := fun _ => rfl
      dsimp only at he
      generalize hps : (os.filter fun x => decide ((⟨v, false⟩ : Lit) ∈ st.s.db.lits x.2)) = ps at *
      generalize hns : (os.filter fun x => !decide ((⟨v, false⟩ : Lit) ∈ st.s.db.lits x.2)) = ns at *
      have hosplit : ∀ x, x ∈ os ↔ x ∈ ps ∨ x ∈ ns := by
        intro x
        rw [← hps, ← hns, List.mem_filter, List.mem_filter]
        cases decide ((⟨v, false⟩ : Lit) ∈ st.s.db.lits x.2) <;> simp
      -- clauses that mention the variable are among the occurrences
      have hall : ∀ c, LiveId st.s.db c → (∃ l ∈ st.s.db.lits c, l.var = v) →
          ∃ i, (i, c) ∈ os := by
        rintro c hc ⟨l, hl, hlv⟩
        rcases h.live.listed c hc with ⟨i, hi⟩ | ⟨m, hm, hmV⟩
        · have := h.live.occAll i c hi l hl
          rw [hlv] at this
          exact ⟨i, o3 i this c hi⟩
        · rw [hm] at hl
          simp at hl; subst hl
          rw [hlv] at hmV
          exact (hVv hmV).elim
      rw [eliminateVar] at he
      split at he
      · simp only [Option.some.injEq, Prod.mk.injEq] at he
        obtain ⟨rfl, rfl⟩ := he
        exact ⟨h, rfl, rfl, hve, fun _ h => h, fun _ h => Or.inl h⟩
      · rename_i hlen
        dsimp only at he
        split at he
        · simp only [Option.some.injEq, Prod.mk.injEq] at he
          obtain ⟨rfl, rfl⟩ := he
          exact ⟨h, rfl, rfl, hve, fun _ h => h, fun _ h => Or.inl h⟩
        · simp only [Option.some.injEq, Prod.mk.injEq] at he
          obtain ⟨rfl, rfl⟩ := he
          exact ⟨h, rfl, rfl, hve, fun _ h => h, fun _ h => Or.inl h⟩
        · split at he
          · simp at he
          · rename_i s2 hs2
            simp only [Option.some.injEq, Prod.mk.injEq] at he
            obtain ⟨rfl, rfl⟩ := he
            simp only at z1 z2 z3 ⊢
            -- live clauses for the objects
            have hobj : ∀ x, x ∈ ps ∨ x ∈ ns → st.s.obj[x.1]? = some (some x.2) := by
              rintro x (hx | hx)
              · exact hocc.objP x hx
              · exact hocc.objN x hx
            have hlv : ∀ x, x ∈ ps ∨ x ∈ ns → LiveId st.s.db x.2 := fun x hx =>
              h.live.liveId h.ok (hobj x hx)
            have hrp : ResPairs v st.s.db (pairs (ps.map Prod.snd) (ns.map Prod.snd)) := by
              intro p hp
              obtain ⟨q1, q2⟩ := mem_pairs.1 hp
              obtain ⟨x, hx, e1⟩ := List.mem_map.1 q1
              obtain ⟨y, hy, e2⟩ := List.mem_map.1 q2
              rw [← e1, ← e2]
              exact ⟨h.ok.lt (hobj x (Or.inl hx)), h.ok.lt (hobj y (Or.inr hy)), hocc.memP x hx,
                hocc.memN y hy⟩
            have hw0 : ∀ p ∈ pairs (ps.map Prod.snd) (ns.map Prod.snd),
                (st.s.db.store p.1).weight = 0 := by
              intro p hp
              obtain ⟨q1, _⟩ := mem_pairs.1 hp
              obtain ⟨x, hx, e1⟩ := List.mem_map.1 q1
              rw [← e1]
              exact h.live.alive x.1 x.2 (hobj x (Or.inl hx))
            obtain ⟨c1, c2, c3, c4, c5⟩ := createResolvents_live _ st.s h.ok h.live hrp hw0
            obtain ⟨_, cx⟩ := createResolvents_sound (v := v) _ st.s h.ok hrp
            generalize createResolvents v (pairs (ps.map Prod.snd) (ns.map Prod.snd)) st.s = s1 at *
            obtain ⟨r1, r2, r3⟩ := removeAll_live _ s1 c1 s2 hs2
            have hlt : ∀ c, LiveId st.s.db c → c < st.s.db.next := fun c hc => h.ok.db.mem c hc.1
            have hlits : ∀ c, LiveId st.s.db c → s2.db.lits c = st.s.db.lits c := fun c hc => by
              rw [r2, cx.lits c (hlt c hc)]
            -- removed exactly the occurrences
            have hrem : ∀ x, x ∈ ps ∨ x ∈ ns → ¬ LiveId s2.db x.2 := by
              intro x hx hl
              have := ((r3 x.2).1 hl).2 x.1 (by
                rw [List.mem_append]
                rcases hx with hx | hx
                · exact Or.inl (List.mem_map.2 ⟨x, hx, rfl⟩)
                · exact Or.inr (List.mem_map.2 ⟨x, hx, rfl⟩))
              exact this (c5 _ _ (hobj x hx))
            have hres : ∀ p q, p ∈ ps → q ∈ ns → ∀ r,
                merge (st.s.db.lits p.2) (st.s.db.lits q.2) v = some r →
                (∀ l, l ∈ r ↔ (l ∈ st.s.db.lits p.2 ∨ l ∈ st.s.db.lits q.2) ∧ l.var ≠ v) := by
              intro p q hp hq r hr
              exact (merge_some (h.ok.db.nd _ (h.ok.lt (hobj p (Or.inl hp))))
                (h.ok.db.nd _ (h.ok.lt (hobj q (Or.inr hq)))) hr).1
            -- the new live clauses
            have hnew : ∀ d, LiveId s2.db d → (LiveId st.s.db d ∧ ∀ l ∈ st.s.db.lits d, l.var ≠ v) ∨
                ∃ p q, p ∈ ps ∧ q ∈ ns ∧
                  merge (st.s.db.lits p.2) (st.s.db.lits q.2) v = some (s2.db.lits d) := by
              intro d hd
              have hd1 := ((r3 d).1 hd).1
              rcases c3 d hd1 with h1 | ⟨p, hp, hm⟩
              · left
                refine ⟨h1, fun l hl hlv' => ?_⟩
                obtain ⟨i, hi⟩ := hall d h1 ⟨l, hl, hlv'⟩
                exact hrem (i, d) ((hosplit _).1 hi) hd
              · right
                obtain ⟨q1, q2⟩ := mem_pairs.1 hp
                obtain ⟨x, hx, e1⟩ := List.mem_map.1 q1
                obtain ⟨y, hy, e2⟩ := List.mem_map.1 q2
                exact ⟨x, y, hx, hy, by rw [e1, e2, r2]; exact hm⟩
            -- resolvents are live
            have hresl : ∀ p q, p ∈ ps → q ∈ ns → ∀ r,
                merge (st.s.db.lits p.2) (st.s.db.lits q.2) v = some r →
                ∃ d, LiveId s2.db d ∧ s2.db.lits d = r := by
              intro p q hp hq r hr
              obtain ⟨d, d1, d2⟩ := c4 (p.2, q.2) (mem_pairs.2
                ⟨List.mem_map.2 ⟨p, hp, rfl⟩, List.mem_map.2 ⟨q, hq, rfl⟩⟩) r hr
              refine ⟨d, (r3 d).2 ⟨d1, ?_⟩, by rw [r2]; exact d2⟩
              intro i hi hid
              -- then `d` would mention `v`
              have : ∃ x, (x ∈ ps ∨ x ∈ ns) ∧ x.1 = i := by
                rw [List.mem_append] at hi
                rcases hi with hi | hi
                · obtain ⟨x, hx, e⟩ := List.mem_map.1 hi; exact ⟨x, Or.inl hx, e⟩
                · obtain ⟨x, hx, e⟩ := List.mem_map.1 hi; exact ⟨x, Or.inr hx, e⟩
              obtain ⟨x, hx, rfl⟩ := this
              have hxo := c5 _ _ (hobj x hx)
              have hxd : x.2 = d := Option.some.inj (Option.some.inj (hxo.symm.trans hid))
              have hlx : s1.db.lits d = st.s.db.lits x.2 := by
                rw [← hxd, cx.lits _ (h.ok.lt (hobj x hx))]
              have hvx : ∃ l ∈ st.s.db.lits x.2, l.var = v := by
                rcases hx with hx | hx
                · exact ⟨_, hocc.memP x hx, rfl⟩
                · exact ⟨_, hocc.memN x hx, rfl⟩
              obtain ⟨l, hl, hlv'⟩ := hvx
              rw [← hlx, d2] at hl
              exact ((hres p q hp hq r hr l).1 hl).2 hlv'
            have hvelim : v ∉ st.ve.vars := by
              intro hvm
              have hne : ∃ x, x ∈ ps ∨ x ∈ ns := by
                match ps, ns, hlen with
                | x :: _, _, _ => exact ⟨x, by simp⟩
                | [], x :: _, _ => exact ⟨x, by simp⟩
                | [], [], hl => simp at hl
              obtain ⟨x, hx⟩ := hne
              have hvx : ∃ l ∈ st.s.db.lits x.2, l.var = v := by
                rcases hx with hx | hx
                · exact ⟨_, hocc.memP x hx, rfl⟩
                · exact ⟨_, hocc.memN x hx, rfl⟩
              obtain ⟨l, hl, rfl⟩ := hvx
              exact h.clean x.2 (hlv x hx) l hl hvm
            have hcls0 : st.ve.cls v = [] := h.cls v hvelim
            have hnV : s2.db.nVars = st.s.db.nVars := z2.nVars
            refine ⟨⟨z1, r1, ?_, ?_, ?_, ?_⟩, rfl, hnV, z3, fun w hw => by simp [hw], fun w hw => by
              simp only [List.mem_append, List.mem_singleton] at hw
              exact hw.imp id (fun e => ⟨e, hvnone⟩)⟩
            · -- clean
              intro c hc l hl
              simp only [List.mem_append, List.mem_singleton, not_or]
              rcases hnew c hc with ⟨h1, h2⟩ | ⟨p, q, hp, hq, hm⟩
              · rw [hlits c h1] at hl
                exact ⟨h.clean c h1 l hl, h2 l hl⟩
              · obtain ⟨k1, k2⟩ := (hres p q hp hq _ hm l).1 hl
                refine ⟨?_, k2⟩
                rcases k1 with k1 | k1
                · exact h.clean p.2 (hlv p (Or.inl hp)) l k1
                · exact h.clean q.2 (hlv q (Or.inr hq)) l k1
            · intro w hw
              simp only [List.mem_append, List.mem_singleton, not_or] at hw
              simp only
              rw [upd_ne _ _ hw.2]
              exact h.cls w hw.1
            · intro w hw
              simp only [Trail.setDecisionVar, List.mem_append, List.mem_singleton, not_or]
              rw [hnV] at hw
              rw [upd_apply]
              split
              · rename_i e; simp [e]
              · rename_i e; simp [e, h.dec w hw]
            · -- reconstruction
              rw [hnV, hcls0]
              simp only [List.nil_append]
              have hS : ∀ c, c ∈ ns.map (fun x => st.s.db.lits x.2) ++ ps.map (fun x => st.s.db.lits x.2) →
                  ∃ x, (x ∈ ps ∨ x ∈ ns) ∧ st.s.db.lits x.2 = c := by
                intro c hc
                rw [List.mem_append] at hc
                rcases hc with hc | hc
                · obtain ⟨x, hx, e⟩ := List.mem_map.1 hc; exact ⟨x, Or.inr hx, e⟩
                · obtain ⟨x, hx, e⟩ := List.mem_map.1 hc; exact ⟨x, Or.inl hx, e⟩
              refine h.recon.step hvelim hvn ?_ ?_ ?_ ?_ ?_ ?_
              · intro e
                have e1 := congrArg List.length e
                simp only [List.length_append, List.length_map, List.length_nil] at e1
                exact hlen (by omega)
              · intro c hc
                obtain ⟨x, hx, rfl⟩ := hS c hc
                exact h.ok.db.nd _ (h.ok.lt (hobj x hx))
              · intro c hc
                obtain ⟨x, hx, rfl⟩ := hS c hc
                rcases hx with hx | hx
                · exact ⟨_, hocc.memP x hx, rfl⟩
                · exact ⟨_, hocc.memN x hx, rfl⟩
              · intro c hc l hl
                obtain ⟨x, hx, rfl⟩ := hS c hc
                exact ⟨h.ok.db.wf _ (h.ok.lt (hobj x hx)) l hl, h.clean _ (hlv x hx) l hl⟩
              · intro c hc d hd l hl hlv' hln
                obtain ⟨x, hx, rfl⟩ := hS c hc
                obtain ⟨y, hy, rfl⟩ := hS d hd
                have ndx := h.ok.db.nd _ (h.ok.lt (hobj x hx))
                have ndy := h.ok.db.nd _ (h.ok.lt (hobj y hy))
                -- which of the two is the positive one
                have pc : ∀ p q, p ∈ ps → q ∈ ns →
                    (∃ z ∈ st.s.db.lits p.2, z.var ≠ v ∧ z.neg ∈ st.s.db.lits q.2) ∨
                    ∃ r ∈ s2.db.cnf, ∀ z ∈ r, (z ∈ st.s.db.lits p.2 ∨ z ∈ st.s.db.lits q.2) ∧
                      z.var ≠ v := by
                  intro p q hp hq
                  have np := h.ok.db.nd _ (h.ok.lt (hobj p (Or.inl hp)))
                  have nq := h.ok.db.nd _ (h.ok.lt (hobj q (Or.inr hq)))
                  cases hm : merge (st.s.db.lits p.2) (st.s.db.lits q.2) v with
                  | none => exact Or.inl ((merge_none np nq).1 hm)
                  | some r =>
                    obtain ⟨d, d1, d2⟩ := hresl p q hp hq r hm
                    exact Or.inr ⟨r, mem_cnf.2 ⟨d, d1, d2⟩, fun z hz => (hres p q hp hq r hm z).1 hz⟩
                have hneg : (neg v).neg = pos v := rfl
                rcases hx with hx | hx
                · have el : l = pos v := var_inj ndx hl (hocc.memP x hx) hlv'
                  subst el
                  rcases hy with hy | hy
                  · have := var_inj ndy hln (hocc.memP y hy) rfl
                    simp [Lit.neg] at this
                  · exact pc x y hx hy
                · have el : l = neg v := var_inj ndx hl (hocc.memN x hx) hlv'
                  subst el
                  rcases hy with hy | hy
                  · rcases pc y x hy hx with ⟨z, z1, z2, z3⟩ | ⟨r, r1, r2⟩
                    · exact Or.inl ⟨z.neg, z3, by simpa using z2, by simpa using z1⟩
                    · exact Or.inr ⟨r, r1, fun z hz => ⟨(r2 z hz).1.symm, (r2 z hz).2⟩⟩
                  · have := var_inj ndy hln (hocc.memN y hy) rfl
                    simp [Lit.neg] at this
              · intro c hc
                obtain ⟨d, hd, rfl⟩ := mem_cnf.1 hc
                by_cases hdv : ∃ l ∈ st.s.db.lits d, l.var = v
                · left
                  obtain ⟨i, hi⟩ := hall d hd hdv
                  rw [List.mem_append]
                  rcases (hosplit _).1 hi with hi | hi
                  · exact Or.inr (List.mem_map.2 ⟨_, hi, rfl⟩)
                  · exact Or.inl (List.mem_map.2 ⟨_, hi, rfl⟩)
                · right
                  have hdv : ∀ l ∈ st.s.db.lits d, l.var ≠ v := fun l hl e => hdv ⟨l, hl, e⟩
                  refine ⟨mem_cnf.2 ⟨d, (r3 d).2 ⟨c2 d hd, ?_⟩, hlits d hd⟩, hdv⟩
                  intro i hi hid
                  have : ∃ x, (x ∈ ps ∨ x ∈ ns) ∧ x.1 = i := by
                    rw [List.mem_append] at hi
                    rcases hi with hi | hi
                    · obtain ⟨x, hx, e⟩ := List.mem_map.1 hi; exact ⟨x, Or.inl hx, e⟩
                    · obtain ⟨x, hx, e⟩ := List.mem_map.1 hi; exact ⟨x, Or.inr hx, e⟩
                  obtain ⟨x, hx, rfl⟩ := this
                  have hxo := c5 _ _ (hobj x hx)
                  have hxd : x.2 = d := Option.some.inj (Option.some.inj (hxo.symm.trans hid))
                  have hvx : ∃ l ∈ st.s.db.lits x.2, l.var = v := by
                    rcases hx with hx | hx
                    · exact ⟨_, hocc.memP x hx, rfl⟩
                    · exact ⟨_, hocc.memN x hx, rfl⟩
                  obtain ⟨l, hl, hlv'⟩ := hvx
                  rw [hxd] at hl
                  exact hdv l hl hlv'
  · simp only [Option.some.injEq, Prod.mk.injEq] at he
    obtain ⟨rfl, rfl⟩ := he
    exact ⟨h, rfl, rfl, hve, fun _ h => h, fun _ h => Or.inl h⟩

theorem EOk.eliminateList {lim : Nat} : ∀ (vs : List Nat) (st : VES), EOk G F V st →
    VEOk F st.s.db.nVars st.ve → (∀ v, V v → st.T.assigns v ≠ none) →
    (∀ v ∈ vs, v < st.s.db.nVars) → ∀ st' b, eliminateList lim vs st = some (st', b) →
    EOk G F V st' ∧ (∀ w ∈ st.ve.vars, w ∈ st'.ve.vars) ∧
      (∀ w ∈ st'.ve.vars, w ∈ st.ve.vars ∨ (w ∈ vs ∧ st.T.assigns w = none))
  | [], st, h, _, _, _, st', b, he => by
    simp only [Candy.eliminateList, Option.some.injEq, Prod.mk.injEq] at he
    obtain ⟨rfl, rfl⟩ := he
    exact ⟨h, fun _ h => h, fun _ h => Or.inl h⟩
  | v :: vs, st, h, hve, hV, hvs, st', b, he => by
    rw [Candy.eliminateList] at he
    split at he
    · simp at he
    · rename_i st1 h1
      simp only [Option.some.injEq, Prod.mk.injEq] at he
      obtain ⟨rfl, rfl⟩ := he
      obtain ⟨a1, _, _, _, a5, a6⟩ := h.eliminateStep hve (hV v) (hvs v (by simp)) h1
      refine ⟨a1, a5, fun w hw => (a6 w hw).imp id ?_⟩
      rintro ⟨rfl, e⟩
      exact ⟨by simp, e⟩
    · rename_i st1 h1
      obtain ⟨a1, a2, a3, a4, a5, a6⟩ := h.eliminateStep hve (hV v) (hvs v (by simp)) h1
      obtain ⟨b1, b2, b3⟩ := EOk.eliminateList vs st1 a1 a4 (fun w hw => by rw [a2]; exact hV w hw)
        (fun w hw => by rw [a3]; exact hvs w (by simp [hw])) st' b he
      refine ⟨b1, fun w hw => b2 w (a5 w hw), fun w hw => ?_⟩
      rcases b3 w hw with h | ⟨h, e⟩
      · rcases a6 w h with h | ⟨rfl, e⟩
        · exact Or.inl h
        · exact Or.inr ⟨by simp, e⟩
      · exact Or.inr ⟨by simp [h], by rw [← a2]; exact e⟩

theorem freeze_mem : ∀ (ls : List Lit) (f : Nat → Bool) (l : Lit), l ∈ ls ∨ f l.var = true →
    (ls.foldl (fun f l => upd f l.var true) f) l.var = true
  | [], f, l, h => by simpa using h
  | x :: xs, f, l, h => by
    rw [List.foldl_cons]
    refine freeze_mem xs _ l ?_
    rcases h with h | h
    · rcases List.mem_cons.1 h with rfl | h
      · right; exact if_pos rfl
      · exact Or.inl h
    · right
      rw [upd_apply]
      split
      · rfl
      · exact h

theorem EOk.eliminateAll {active : Bool} {lim : Nat} {order : (Nat → Nat) → List Nat → List Nat}
    {st : VES} (h : EOk G F V st) (hve : VEOk F st.s.db.nVars st.ve)
    (hV : ∀ v, V v → st.T.assigns v ≠ none) (hnv : st.T.nVars = st.s.db.nVars)
    (hord : ∀ f xs, ∀ x ∈ order f xs, x ∈ xs)
    {st' : VES} {b : Bool} (he : eliminateAll active lim order st = some (st', b)) :
    EOk G F V st' ∧ (∀ w ∈ st.ve.vars, w ∈ st'.ve.vars) ∧
      (∀ w ∈ st'.ve.vars, w ∈ st.ve.vars ∨
        (st.T.assigns w = none ∧ ∀ l ∈ st.T.assumptions, l.var ≠ w)) := by
  have h1 : EOk G F V { st with ve := st.ve.freeze st.T } := ⟨h.ok, h.live, h.clean, h.cls, h.dec, h.recon⟩
  have hve1 : VEOk F st.s.db.nVars (st.ve.freeze st.T) := ⟨hve.ent, hve.wf, hve.nd⟩
  unfold Candy.eliminateAll at he
  dsimp only at he
  split at he
  · have hc : ∀ v ∈ order (fun v => (st.s.occ v).length)
        ((st.ve.freeze st.T).candidates st.T), v < st.s.db.nVars ∧
        ∀ l ∈ st.T.assumptions, l.var ≠ v := by
      intro v hv
      have := hord _ _ v hv
      unfold VE.candidates at this
      obtain ⟨k1, k2⟩ := List.mem_filter.1 this
      refine ⟨by rw [← hnv]; simpa using k1, ?_⟩
      rintro l hl rfl
      have := freeze_mem st.T.assumptions st.ve.frozen l (Or.inl hl)
      have h3 : (st.ve.freeze st.T).frozen l.var = true := this
      simp [h3] at k2
    obtain ⟨b1, b2, b3⟩ := EOk.eliminateList _ { st with ve := st.ve.freeze st.T } h1 hve1 hV
      (fun v hv => (hc v hv).1) st' b he
    refine ⟨b1, b2, fun w hw => ?_⟩
    rcases b3 w hw with h | ⟨h, e⟩
    · exact Or.inl h
    · exact Or.inr ⟨e, (hc w h).2⟩
  · simp only [Option.some.injEq, Prod.mk.injEq] at he
    obtain ⟨rfl, rfl⟩ := he
    exact ⟨h1, fun _ h => h, fun _ h => Or.inl h⟩

end Candy
