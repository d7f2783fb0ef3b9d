import Verif.Proofs.Elim

/-! Asymmetric variable reduction. -/

namespace Candy

variable {F G : CNF} {nV next base : Nat} {bin : Lit → List Watcher} {store : Nat → Cls} {T : Trail}

/-- If no literal lies above level `base`, all assigned literals are entailed. -/
theorem CoreB.entailed (h : CoreB base F nV next bin store T) (hb : T.decisionLevel ≤ base) :
    ∀ {l : Lit}, l ∈ T.stack → Entails F [l] := by
  have key : ∀ n pre l post, pre.length = n → T.stack = pre ++ l :: post → Entails F [l] := by
    intro n
    induction n using Nat.strongRecOn with
    | _ n ih =>
      intro pre l post hn hs
      have hlm : l ∈ T.stack := by rw [hs]; simp
      cases hr : T.reason l.var with
      | none =>
        rcases h.rnone pre l post hs hr with h1 | h1
        · exact h1.2
        · have := h.tinv.level_le hlm; omega
      | some c =>
        obtain ⟨h1, h2, h3⟩ := h.rsome pre l post c hs hr
        rw [Entails.unit]
        intro a ha
        obtain ⟨m, hm, hh⟩ := h.ent c h1 a ha
        by_cases hml : m = l
        · exact hml ▸ hh
        · have hpre := h3 m hm hml
          obtain ⟨p1, p2, hp⟩ := List.append_of_mem hpre
          have := ih p1.length (by rw [← hn, hp]; simp) p1 m.neg (p2 ++ l :: post) rfl
            (by rw [hs, hp]; simp)
          rw [Entails.unit] at this
          exact (Lit.holds_neg.1 (this a ha) hh).elim
  intro l hl
  obtain ⟨pre, post, hs⟩ := List.append_of_mem hl
  exact key _ pre l post rfl hs

theorem ConflictL.refutes {L : Prop} {c : Nat} (h : CoreB base F nV next bin store T)
    (hb : T.decisionLevel ≤ base) (hc : ConflictL L next store T c) : Entails F [] := by
  intro a ha
  obtain ⟨l, hl, hla⟩ := h.ent c hc.lt a ha
  have := h.entailed hb (hc.allFalse l hl)
  rw [Entails.unit] at this
  exact (Lit.holds_neg.1 (this a ha) hla).elim

theorem Entails.weaken {c : Clause} (h : Entails F c) (hG : ∀ a, Sat a G → Sat a F) : Entails G c :=
  fun a ha => h a (hG a ha)

/-- A core on level 0 stays a core with more axioms and a higher base. -/
theorem Core.toBase (h : Core F nV next bin store T) (hl : T.lim = [])
    (hG : ∀ a, Sat a G → Sat a F) (base : Nat) : CoreB base G nV next bin store T where
  tinv := h.tinv
  nv := h.nv
  wf := h.wf
  nd := h.nd
  ent c hc := (h.ent c hc).weaken hG
  rsome := h.rsome
  rnone pre p post hs hr := by
    rcases h.rnone pre p post hs hr with ⟨h1, h2⟩ | ⟨h1, h2⟩
    · exact Or.inl ⟨by omega, h2.weaken hG⟩
    · rw [hl] at h2; simp at h2
  binInv := h.binInv

theorem CoreB.newLevel (h : CoreB base F nV next bin store T) (hl : T.lim = []) :
    CoreB base F nV next bin store T.newDecisionLevel where
  tinv := Trail.newDecisionLevel_inv h.tinv
  nv := h.nv
  wf := h.wf
  nd := h.nd
  ent := h.ent
  rsome := h.rsome
  rnone pre p post hs hr := by
    rcases h.rnone pre p post hs hr with h1 | ⟨h1, h2⟩
    · exact Or.inl h1
    · rw [hl] at h2; simp at h2
  binInv := h.binInv

theorem CoreB.decide (h : CoreB base F nV next bin store T) (hb : T.decisionLevel ≤ base) {p : Lit}
    (hp : T.value p = none) (hv : p.var < nV) (he : Entails F [p]) :
    CoreB base F nV next bin store (T.decide p) where
  tinv := Trail.push_inv h.tinv hp (by rw [h.nv]; exact hv)
  nv := h.nv
  wf := h.wf
  nd := h.nd
  ent := h.ent
  rsome pre q post d hs hr := by
    rw [Trail.decide_eq_push] at hs hr
    rcases append_singleton_split hs with ⟨_, rfl, rfl⟩ | ⟨post', _, hs'⟩
    · simp [Trail.push] at hr
    · have hq : q ∈ T.stack := by rw [hs']; simp
      simp only [Trail.push, upd_ne _ _ (ne_var_of_mem h.tinv hp hq)] at hr
      exact h.rsome pre q post' d hs' hr
  rnone pre q post hs hr := by
    rw [Trail.decide_eq_push] at hs hr ⊢
    rcases append_singleton_split hs with ⟨_, rfl, rfl⟩ | ⟨post', _, hs'⟩
    · left
      refine ⟨?_, he⟩
      simp [Trail.push]
      exact hb
    · have hq : q ∈ T.stack := by rw [hs']; simp
      have hne := ne_var_of_mem h.tinv hp hq
      simp only [Trail.push, upd_ne _ _ hne] at hr ⊢
      exact h.rnone pre q post' hs' hr
  binInv := h.binInv

/-- The literals decided for clause `ls`. -/
def asymKeep (v : Nat) (T : Trail) (ls : List Lit) : List Lit :=
  ls.filter fun x => x.var != v && (T.assigns x.var).isNone

theorem mem_asymKeep {v : Nat} {ls : List Lit} {x : Lit} :
    x ∈ asymKeep v T ls ↔ x ∈ ls ∧ x.var ≠ v ∧ T.assigns x.var = none := by
  simp [asymKeep, List.mem_filter]

theorem asymDecide_spec {v : Nat} {T0 : Trail} {ls : List Lit} :
    ∀ (xs : List Lit) (T : Trail) (l0 : Option Lit),
      CoreB base G nV next bin store T → T.decisionLevel ≤ base →
      (∀ x ∈ xs, x.var < nV) → (xs.map Lit.var).Nodup → (∀ x ∈ xs, x ∈ ls) →
      (∀ x ∈ xs, T.assigns x.var = T0.assigns x.var) →
      (∀ x ∈ asymKeep v T0 ls, Entails G [x.neg]) →
      ∀ T' l, asymDecide v xs T l0 = (T', l) →
      CoreB base G nV next bin store T' ∧ T'.lim = T.lim ∧ T'.nVars = T.nVars ∧
      T'.qhead = T.qhead ∧ T'.assumptions = T.assumptions ∧ T'.decision = T.decision ∧
      (∃ suf, T'.stack = T.stack ++ suf) ∧
      (∀ x ∈ T.stack, T'.level x.var = T.level x.var) ∧
      (∀ x ∈ T.stack, T'.reason x.var = T.reason x.var) ∧
      (∀ y, l = some y → l0 = some y ∨ (y ∈ ls ∧ y ∉ asymKeep v T0 ls))
  | [], T, l0, hc, _, _, _, _, _, _, T', l, he => by
    simp only [asymDecide, Prod.mk.injEq] at he
    obtain ⟨rfl, rfl⟩ := he
    exact ⟨hc, rfl, rfl, rfl, rfl, rfl, ⟨[], by simp⟩, fun _ _ => rfl, fun _ _ => rfl,
      fun _ h => Or.inl h⟩
  | x :: xs, T, l0, hc, hb, hv, hn, hls, has, hk, T', l, he => by
    have hn' := (List.nodup_cons.1 hn)
    rw [asymDecide] at he
    split at he
    · rename_i hx
      have hval : T.value x.neg = none := by
        rw [Trail.value_none_iff]; simpa using hx.2
      have hent : Entails G [x.neg] := by
        apply hk
        rw [mem_asymKeep]
        exact ⟨hls x (by simp), hx.1, by rw [← has x (by simp)]; exact hx.2⟩
      have hc' := hc.decide hb hval (by simpa using hv x (by simp)) hent
      obtain ⟨a1, a2, a3, a4, a5, a6, ⟨suf, a7⟩, a8, a9, a10⟩ := asymDecide_spec xs
        (T.decide x.neg) l0 hc' hb (fun y hy => hv y (by simp [hy])) hn'.2
        (fun y hy => hls y (by simp [hy])) (by
          intro y hy
          rw [← has y (by simp [hy])]
          have : y.var ≠ x.neg.var := by
            intro e
            exact hn'.1 (List.mem_map.2 ⟨y, hy, by simpa using e⟩)
          simp only [Trail.decide, Trail.setValue]
          rw [upd_ne _ _ this]) hk T' l he
      have hne : ∀ y ∈ T.stack, y.var ≠ x.neg.var := fun y hy => ne_var_of_mem hc.tinv hval hy
      refine ⟨a1, a2, a3, a4, a5, a6, ⟨x.neg :: suf, ?_⟩, ?_, ?_, a10⟩
      · rw [a7]; simp [Trail.decide, Trail.setValue]
      · intro y hy
        rw [a8 y (by simp [Trail.decide, Trail.setValue, hy])]
        simp only [Trail.decide]
        rw [upd_ne _ _ (hne y hy)]
      · intro y hy
        rw [a9 y (by simp [Trail.decide, Trail.setValue, hy])]
        simp only [Trail.decide]
        rw [upd_ne _ _ (hne y hy)]
    · rename_i hx
      obtain ⟨a1, a2, a3, a4, a5, a6, a7, a8, a9, a10⟩ := asymDecide_spec xs T (some x) hc hb
        (fun y hy => hv y (by simp [hy])) hn'.2 (fun y hy => hls y (by simp [hy]))
        (fun y hy => has y (by simp [hy])) hk T' l he
      refine ⟨a1, a2, a3, a4, a5, a6, a7, a8, a9, fun y hy => ?_⟩
      rcases a10 y hy with h | h
      · right
        simp at h; subst h
        refine ⟨hls x (by simp), ?_⟩
        rw [mem_asymKeep]
        rintro ⟨_, h1, h2⟩
        exact hx ⟨h1, by rw [has x (by simp)]; exact h2⟩
      · exact Or.inr h

/-! ### Steps of preprocessing without elimination -/

/-- Steps of subsumption and asymmetric reduction. -/
inductive GStep (F : CNF) : SDB → SDB → Prop
  | sub {s s' : SDB} (h : SStep s s') : GStep F s s'
  | shrink {s s' : SDB} {i : Nat} {l : Lit} (he : s.strengthen i l = some s')
      (hent : ∀ c, s.obj[i]? = some (some c) → l ∈ s.db.lits c ∧
        Entails F ((s.db.lits c).filter (fun x => x != l)))
      (hlen : ∀ c, s.obj[i]? = some (some c) → 1 < (s.db.lits c).length) :
      GStep F s s'
  | perm {s : SDB} {st : Nat → Cls} (h : StoreExt s.db.store st) :
      GStep F s { s with db := { s.db with store := st } }

inductive GSteps (F : CNF) : SDB → SDB → Prop
  | refl (s) : GSteps F s s
  | cons {s t u} (h : GStep F s t) (h' : GSteps F t u) : GSteps F s u

theorem GSteps.trans {s t u : SDB} (h : GSteps F s t) (h' : GSteps F t u) : GSteps F s u := by
  induction h with
  | refl => exact h'
  | cons a _ ih => exact .cons a (ih h')

theorem SSteps.toG {s t : SDB} (h : SSteps s t) : GSteps F s t := by
  induction h with
  | refl => exact .refl _
  | cons a _ ih => exact .cons (.sub a) ih

/-- Like `DBExt`, up to the order of literals. -/
structure DBExtP (db db' : DB) : Prop where
  next : db.next ≤ db'.next
  nVars : db'.nVars = db.nVars
  lits : ∀ c < db.next, (db'.lits c).Perm (db.lits c)
  hasEmpty : db.hasEmpty = true → db'.hasEmpty = true

theorem DBExtP.refl (db : DB) : DBExtP db db :=
  ⟨Nat.le_refl _, rfl, fun _ _ => List.Perm.refl _, id⟩

theorem DBExtP.trans {a b c : DB} (h : DBExtP a b) (h' : DBExtP b c) : DBExtP a c where
  next := Nat.le_trans h.next h'.next
  nVars := h'.nVars.trans h.nVars
  lits d hd := (h'.lits d (Nat.lt_of_lt_of_le hd h.next)).trans (h.lits d hd)
  hasEmpty he := h'.hasEmpty (h.hasEmpty he)

theorem DBExt.toP {a b : DB} (h : DBExt a b) : DBExtP a b :=
  ⟨h.next, h.nVars, fun c hc => by rw [h.lits c hc], h.hasEmpty⟩

theorem GStep.sound {s s' : SDB} (h : GStep F s s') (hs : SOk F s) :
    SOk F s' ∧ DBExtP s.db s'.db := by
  cases h with
  | sub h => obtain ⟨a, b⟩ := h.sound hs; exact ⟨a, b.toP⟩
  | shrink he hent _ => obtain ⟨a, b⟩ := hs.strengthen he (fun c hc => (hent c hc).2); exact ⟨a, b.toP⟩
  | perm h =>
    refine ⟨hs.ofDB (hs.db.perm h) (fun _ hc => hc) ?_, ?_⟩
    · intro c _ l
      exact (h c).1.mem_iff
    · exact ⟨Nat.le_refl _, rfl, fun c _ => (h c).1, fun h => h⟩

theorem GSteps.sound {s s' : SDB} (h : GSteps F s s') (hs : SOk F s) :
    SOk F s' ∧ DBExtP s.db s'.db := by
  induction h with
  | refl => exact ⟨hs, DBExtP.refl _⟩
  | cons a _ ih =>
    obtain ⟨h1, h2⟩ := a.sound hs
    obtain ⟨h3, h4⟩ := ih h1
    exact ⟨h3, h2.trans h4⟩

/-! ### The loops -/

/-- Trails with the same assignment. -/
structure TEq (T T' : Trail) : Prop where
  nVars : T'.nVars = T.nVars
  stack : T'.stack = T.stack
  lim : T'.lim = T.lim
  assumptions : T'.assumptions = T.assumptions
  decision : T'.decision = T.decision
  reason : ∀ l ∈ T.stack, T'.reason l.var = T.reason l.var

theorem TEq.refl (T : Trail) : TEq T T := ⟨rfl, rfl, rfl, rfl, rfl, fun _ _ => rfl⟩
theorem TEq.trans {a b c : Trail} (h : TEq a b) (h' : TEq b c) : TEq a c :=
  ⟨h'.1.trans h.1, h'.2.trans h.2, h'.3.trans h.3, h'.4.trans h.4, h'.5.trans h.5,
    fun l hl => (h'.reason l (by rw [h.stack]; exact hl)).trans (h.reason l hl)⟩

/-- Invariant of asymmetric reduction. -/
structure AOk (F : CNF) (st : AVS) : Prop where
  ok : SOk F st.s
  core : Core F st.s.db.nVars st.s.db.next st.s.db.bin st.s.db.store st.T
  watch : WatchInv st.s.db.next st.s.db.store st.watch
  lim : st.T.lim = []

theorem AOk.db {st : AVS} (h : AOk F st) {s' : SDB} (hs : SOk F s') (hx : DBExt st.s.db s'.db) :
    AOk F { st with s := s' } where
  ok := hs
  core := Core.ofDB hs.db h.core hx.next hx.nVars.symm hx.lits
  watch := h.watch.congr hx.next hx.lits
  lim := h.lim

theorem sat_append {a : Assign} {G H : CNF} : Sat a (G ++ H) ↔ Sat a G ∧ Sat a H := by
  unfold Sat
  constructor
  · intro h
    exact ⟨fun c hc => h c (List.mem_append.2 (Or.inl hc)),
      fun c hc => h c (List.mem_append.2 (Or.inr hc))⟩
  · rintro ⟨h1, h2⟩ c hc
    rcases List.mem_append.1 hc with h | h
    · exact h1 c h
    · exact h2 c h

theorem sat_unitsOf {a : Assign} {ls : List Lit} : Sat a (unitsOf ls) ↔ ∀ l ∈ ls, l.holds a := by
  unfold Sat unitsOf
  constructor
  · intro h l hl
    obtain ⟨x, hx, hxa⟩ := h [l] (List.mem_map.2 ⟨l, hl, rfl⟩)
    simp at hx; subst hx; exact hxa
  · intro h c hc
    obtain ⟨l, hl, rfl⟩ := List.mem_map.1 hc
    exact ⟨l, by simp, h l hl⟩

theorem asymScan_spec {v : Nat} : ∀ (os : List Nat) (st : AVS), AOk F st → os.Nodup →
    (∀ o ∈ os, ∀ c, st.s.obj[o]? = some (some c) → ∃ l ∈ st.s.db.lits c, l.var = v) →
    ∀ st' b, asymScan v os st = some (st', b) →
    AOk F st' ∧ GSteps F st.s st'.s ∧ TEq st.T st'.T ∧ (b = false → Entails F [])
  | [], st, h, _, _, st', b, he => by
    simp only [asymScan, Option.some.injEq, Prod.mk.injEq] at he
    obtain ⟨rfl, rfl⟩ := he
    exact ⟨h, .refl _, TEq.refl _, by simp⟩
  | o :: os, st, h, hn, hv, st', b, he => by
    have hn' := List.nodup_cons.1 hn
    have hv' : ∀ x ∈ os, ∀ c, st.s.obj[x]? = some (some c) → ∃ l ∈ st.s.db.lits c, l.var = v :=
      fun x hx => hv x (by simp [hx])
    rw [asymScan] at he
    split at he
    · simp at he
    · exact asymScan_spec os st h hn'.2 hv' st' b he
    · rename_i c hc
      simp only at he
      split at he
      · exact asymScan_spec os st h hn'.2 hv' st' b he
      · rename_i hsat
        have hclt := h.ok.lt hc
        generalize hdec : asymDecide v (st.s.db.lits c) st.T.newDecisionLevel none = r at he
        obtain ⟨T1, l1⟩ := r
        -- axioms: the formula and the negations of the decided literals
        let D := asymKeep v st.T (st.s.db.lits c)
        have hG : ∀ a, Sat a (F ++ unitsOf (D.map Lit.neg)) → Sat a F := fun a ha => (sat_append.1 ha).1
        have hcore1 := CoreB.newLevel (h.core.toBase h.lim hG 1) h.lim
        have hb1 : st.T.newDecisionLevel.decisionLevel ≤ 1 := by
          simp [Trail.newDecisionLevel, Trail.decisionLevel, h.lim]
        obtain ⟨a1, a2, a3, a4, a5, a6, ⟨suf, a7⟩, a8, a9, a10⟩ := asymDecide_spec (v := v) (T0 := st.T)
          (ls := st.s.db.lits c) (st.s.db.lits c) st.T.newDecisionLevel none hcore1 hb1
          (h.ok.db.wf c hclt) (h.ok.db.nd c hclt) (fun _ h => h) (fun _ _ => rfl) (by
            intro x hx a ha
            have := sat_unitsOf.1 (sat_append.1 ha).2 x.neg (List.mem_map.2 ⟨x, hx, rfl⟩)
            exact ⟨x.neg, by simp, this⟩) T1 l1 hdec
        have hlim1 : T1.lim = [st.T.stack.length] := by
          rw [a2]; simp [Trail.newDecisionLevel, h.lim]
        obtain ⟨ps, rr, e1, e2, e3, e4, e5, e6, e7, _, _⟩ := propagateLoop_specL (L := False)
          (A := fun _ => False) (st.s.db.nVars + 1) ⟨st.s.db.store, st.watch, T1⟩ a1 h.watch
          (fun h => h.elim) (by omega)
        simp only at e4 e5
        rw [e1] at he
        simp only at he
        have hlim2 : ps.T.lim[0]? = some st.T.stack.length := by
          rw [e4.lim, hlim1]; rfl
        have hdl : ps.T.decisionLevel ≤ 1 := by
          unfold Trail.decisionLevel; rw [e4.lim, hlim1]; simp
        obtain ⟨suf2, hstk⟩ := e4.stack
        rw [a7] at hstk
        have hstack : (ps.T.backtrack 0).stack = st.T.stack := by
          rw [Trail.backtrack_stack hlim2, hstk]
          simp only [Trail.newDecisionLevel]
          rw [List.append_assoc, List.take_left']
          rfl
        have hlimB : (ps.T.backtrack 0).lim = [] := by
          rw [Trail.backtrack_lim hlim2]; simp
        have hmem1 : ∀ x ∈ st.T.stack, x ∈ T1.stack := by
          intro x hx; rw [a7]; exact List.mem_append_left _ hx
        have hcoreB : Core F st.s.db.nVars st.s.db.next st.s.db.bin ps.store
            (ps.T.backtrack 0) := by
          have h0 := h.core.perm e5
          exact {
            tinv := Trail.backtrack_inv e2.tinv
            nv := by rw [Trail.backtrack_nVars, e4.nVars, a3]; exact h.core.nv
            wf := h0.wf
            nd := h0.nd
            ent := h0.ent
            rsome := by
              intro pre p post d hs hr
              rw [hstack] at hs
              have hp : p ∈ st.T.stack := by rw [hs]; simp
              rw [Trail.backtrack_reason, e4.reason p (hmem1 p hp), a9 p hp] at hr
              exact h0.rsome pre p post d hs hr
            rnone := by
              intro pre p post hs hr
              rw [hstack] at hs
              have hp : p ∈ st.T.stack := by rw [hs]; simp
              rw [Trail.backtrack_reason, e4.reason p (hmem1 p hp), a9 p hp] at hr
              rw [Trail.backtrack_level, e4.level p (hmem1 p hp), a8 p hp]
              rcases h0.rnone pre p post hs hr with h1 | ⟨h1, h2⟩
              · exact Or.inl h1
              · rw [h.lim] at h2; simp at h2
            binInv := h0.binInv }
        have hTEq : TEq st.T (ps.T.backtrack 0) := by
          refine ⟨?_, hstack, by rw [hlimB, h.lim], ?_, ?_, fun x hx => by
            rw [Trail.backtrack_reason, e4.reason x (hmem1 x hx), a9 x hx]; rfl⟩
          · rw [Trail.backtrack_nVars, e4.nVars, a3]; rfl
          · rw [Trail.backtrack_assumptions, e4.assumptions, a5]; rfl
          · rw [Trail.backtrack_decision, e4.decision, a6]; rfl
        have hgp : GStep F st.s { st.s with db := { st.s.db with store := ps.store } } := .perm e5
        obtain ⟨hsok, hsx⟩ := hgp.sound h.ok
        have hok2 : AOk F ⟨{ st.s with db := { st.s.db with store := ps.store } }, ps.watch,
            ps.T.backtrack 0⟩ := ⟨hsok, hcoreB, e3, hlimB⟩
        have hv2 : ∀ x ∈ os, ∀ c, st.s.obj[x]? = some (some c) →
            ∃ l ∈ (ps.store c).lits, l.var = v := by
          intro x hx d hd
          obtain ⟨l, h1, h2⟩ := hv' x hx d hd
          exact ⟨l, (e5 d).1.mem_iff.2 h1, h2⟩
        cases rr with
        | none =>
          simp only at he
          obtain ⟨r1, r2, r3, r4⟩ := asymScan_spec os _ hok2 hn'.2 hv2 st' b he
          exact ⟨r1, .cons hgp r2, hTEq.trans r3, r4⟩
        | some cf =>
          simp only at he
          have hempty := ConflictL.refutes e2 hdl (e7 cf rfl)
          have hD : Entails F D := by
            intro a ha
            by_cases hall : ∀ x ∈ D, ¬ x.holds a
            · obtain ⟨l, hl, _⟩ := hempty a (sat_append.2 ⟨ha, sat_unitsOf.2 (by
                intro l hl
                obtain ⟨x, hx, rfl⟩ := List.mem_map.1 hl
                exact Lit.holds_neg.2 (hall x hx))⟩)
              simp at hl
            · have : ∃ x, x ∈ D ∧ x.holds a := by
                by_cases hex : ∃ x, x ∈ D ∧ x.holds a
                · exact hex
                · exact (hall fun x hx hxa => hex ⟨x, hx, hxa⟩).elim
              exact this
          split at he
          · split at he
            · simp at he
            · rename_i l
              have hlD : l ∈ st.s.db.lits c ∧ l ∉ D := by
                rcases a10 l rfl with h1 | h1
                · simp at h1
                · exact h1
              split at he
              · simp at he
              · rename_i s2 hs2
                have hent2 : ∀ d, st.s.obj[o]? = some (some d) → Entails F
                    ((ps.store d).lits.filter (fun x => x != l)) := by
                  intro d hd
                  have hdc : d = c := by
                    rw [hc] at hd; exact (Option.some.inj (Option.some.inj hd)).symm
                  subst hdc
                  refine hD.mono ?_
                  intro x hx
                  have hxm := mem_asymKeep.1 hx
                  refine List.mem_filter.2 ⟨(e5 d).1.mem_iff.2 hxm.1, ?_⟩
                  simp only [bne_iff_ne, ne_eq]
                  rintro rfl
                  exact hlD.2 hx
                have hsh : GStep F { st.s with db := { st.s.db with store := ps.store } } s2 :=
                  .shrink hs2 (fun d hd => ⟨by
                    have hdc : d = c := by
                      have hd : st.s.obj[o]? = some (some d) := hd
                      rw [hc] at hd; exact (Option.some.inj (Option.some.inj hd)).symm
                    subst hdc
                    exact (e5 d).1.mem_iff.2 hlD.1, hent2 d hd⟩) (fun d hd => by
                    have hdc : d = c := by
                      have hd : st.s.obj[o]? = some (some d) := hd
                      rw [hc] at hd; exact (Option.some.inj (Option.some.inj hd)).symm
                    subst hdc
                    show 1 < (ps.store d).lits.length
                    rw [(e5 d).1.length_eq]; assumption)
                obtain ⟨k1, k2⟩ := hsok.strengthen hs2 hent2
                obtain ⟨r1, r2, r3, r4⟩ := asymScan_spec os ⟨s2, ps.watch, ps.T.backtrack 0⟩
                  (hok2.db k1 k2) hn'.2 (by
                    intro x hx d hd
                    have hxo : x ≠ o := fun e => hn'.1 (e ▸ hx)
                    have hd' : st.s.obj[x]? = some (some d) := by
                      obtain ⟨cc, _, es2⟩ := strengthen_eq hs2
                      rw [es2] at hd
                      rcases set_obj hd with ⟨e, _⟩ | ⟨_, e⟩
                      · exact (hxo e.symm).elim
                      · exact e
                    obtain ⟨y, hy1, hy2⟩ := hv2 x hx d hd'
                    refine ⟨y, ?_, hy2⟩
                    simp only
                    rw [k2.lits d (h.ok.lt hd')]
                    exact hy1) st' b he
                exact ⟨r1, .cons hgp (.cons hsh r2), hTEq.trans r3, r4⟩
          · rename_i hlen
            simp only [Option.some.injEq, Prod.mk.injEq] at he
            obtain ⟨rfl, rfl⟩ := he
            refine ⟨hok2, .cons hgp (.refl _), hTEq, fun _ => ?_⟩
            have hDnil : D = [] := by
              obtain ⟨l, h1, h2⟩ := hv o (by simp) c hc
              have hl := length_le_one (show (st.s.db.lits c).length ≤ 1 by omega) h1
              simp only [D, asymKeep, hl]
              simp [h2]
            rw [hDnil] at hD
            exact hD

theorem asymList_spec : ∀ (vs : List Nat) (st : AVS), AOk F st →
    ∀ st' b, asymList vs st = some (st', b) →
    AOk F st' ∧ GSteps F st.s st'.s ∧ TEq st.T st'.T ∧ (b = false → Entails F [])
  | [], st, h, st', b, he => by
    simp only [asymList, Option.some.injEq, Prod.mk.injEq] at he
    obtain ⟨rfl, rfl⟩ := he
    exact ⟨h, .refl _, TEq.refl _, by simp⟩
  | v :: vs, st, h, st', b, he => by
    rw [asymList] at he
    split at he
    · split at he
      · simp at he
      · rename_i st1 hst1
        simp only [Option.some.injEq, Prod.mk.injEq] at he
        obtain ⟨rfl, rfl⟩ := he
        exact asymScan_spec _ st h (h.ok.occNd v) (h.ok.occVar v) _ _ hst1
      · rename_i st1 hst1
        obtain ⟨a, c, d, _⟩ := asymScan_spec _ st h (h.ok.occNd v) (h.ok.occVar v) _ _ hst1
        obtain ⟨a2, c2, d2, e2⟩ := asymList_spec vs st1 a st' b he
        exact ⟨a2, c.trans c2, d.trans d2, e2⟩
    · exact asymList_spec vs st h st' b he

theorem asymAll_spec {active : Bool} {st st' : AVS} {b : Bool} (h : AOk F st)
    (he : asymAll active st = some (st', b)) :
    AOk F st' ∧ GSteps F st.s st'.s ∧ TEq st.T st'.T ∧ (b = false → Entails F []) := by
  rw [asymAll] at he
  split at he
  · exact asymList_spec _ st h st' b he
  · simp only [Option.some.injEq, Prod.mk.injEq] at he
    obtain ⟨rfl, rfl⟩ := he
    exact ⟨h, .refl _, TEq.refl _, by simp⟩

end Candy
