import Verif.Proofs.CentralitySearch

/-! All look-ups of centralities are in bounds once the graph has been made of the current clauses. -/

namespace Candy

variable {F : CNF} {G : Nat → Prop} {P : Nat → Prop}

/-! ### Reasons -/

/-- The reasons above level 0 satisfy `G`. -/
def RG (G : Nat → Prop) (T : Trail) : Prop := ∀ v c, T.assigns v ≠ none → T.reason v = some c → G c ∨ T.level v = 0

theorem RG.mono {G' : Nat → Prop} {T : Trail} (h : RG G T) (hg : ∀ c, G c → G' c) : RG G' T :=
  fun v c h1 h2 => (h v c h1 h2).imp_left (hg c)

theorem RG.propagate {T : Trail} (h : RG G T) (p : Lit) {c : Nat} (hc : G c) : RG G (T.propagate p c) := by
  unfold Trail.propagate
  split
  · exact h
  · intro v d h1 h2
    simp only [Trail.setValue, upd_apply] at h1 h2 ⊢
    by_cases hv : v = p.var
    · rw [if_pos hv] at h2
      cases h2; exact .inl hc
    · rw [if_neg hv] at h1 h2 ⊢
      exact h v d h1 h2

theorem RG.decide {T : Trail} (h : RG G T) (p : Lit) : RG G (T.decide p) := by
  intro v d h1 h2
  simp only [Trail.decide, Trail.setValue, upd_apply] at h1 h2 ⊢
  by_cases hv : v = p.var
  · rw [if_pos hv] at h2; cases h2
  · rw [if_neg hv] at h1 h2 ⊢
    exact h v d h1 h2

theorem RG.backtrack {T : Trail} (h : RG G T) (n : Nat) : RG G (T.backtrack n) := by
  unfold Trail.backtrack
  split
  · exact h
  · intro v d h1 h2
    dsimp only at h1 h2 ⊢
    split at h1
    · exact (h1 rfl).elim
    · exact h v d h1 h2

theorem propBinary_rg : ∀ (ws : List Watcher) (T T' : Trail) (r : Option Nat),
    propBinary T ws = (T', r) → (∀ w ∈ ws, G w.cref) → RG G T → RG G T'
  | [], T, T', r, he, _, h => by
    simp only [propBinary, Prod.mk.injEq] at he
    rw [← he.1]; exact h
  | w :: ws, T, T', r, he, hw, h => by
    have hws : ∀ w ∈ ws, G w.cref := fun v hv => hw v (by simp [hv])
    rw [propBinary] at he
    split at he
    · simp only [Prod.mk.injEq] at he
      rw [← he.1]; exact h
    · exact propBinary_rg ws _ _ _ he hws (h.propagate _ (hw w (by simp)))
    · exact propBinary_rg ws _ _ _ he hws h

theorem propWatched_rg {p : Lit} : ∀ (ws kept : List Watcher) (s s' : PS)
    (r : Option Nat), propWatched p ws kept s = some (s', r) → (∀ w ∈ ws, G w.cref) → RG G s.T → RG G s'.T
  | [], kept, s, s', r, he, _, h => by
    simp only [propWatched, Option.some.injEq, Prod.mk.injEq] at he
    obtain ⟨rfl, rfl⟩ := he
    exact h
  | w :: ws, kept, s, s', r, he, hw, h => by
    have hws : ∀ v ∈ ws, G v.cref := fun v hv => hw v (by simp [hv])
    rw [propWatched] at he
    split at he
    · exact propWatched_rg ws _ _ _ _ he hws h
    · dsimp only at he
      split at he
      · split at he
        · exact propWatched_rg ws _ _ _ _ he hws h
        · split at he
          · split at he
            · cases he
            · exact propWatched_rg ws _ _ _ _ he hws h
          · split at he
            · simp only [Option.some.injEq, Prod.mk.injEq] at he
              obtain ⟨rfl, rfl⟩ := he
              exact h
            · exact propWatched_rg ws _ _ _ _ he hws (h.propagate _ (hw w (by simp)))
      · cases he

theorem propagateLoop_rg {bin : Lit → List Watcher} (hb : ∀ p, ∀ w ∈ bin p, G w.cref) : ∀ (fuel : Nat) (s s' : PS)
    (r : Option Nat), propagateLoop bin fuel s = some (s', r) → (∀ q, ∀ w ∈ s.watch q, G w.cref) → RG G s.T → RG G s'.T
  | 0, _, _, _, he, _, _ => by cases he
  | fuel + 1, s, s', r, he, hw, h => by
    rw [propagateLoop] at he
    split at he
    · cases he; exact h
    · next p hp =>
      dsimp only at he
      have h0 : RG G { s.T with qhead := s.T.qhead + 1 } := h
      split at he
      · next T c hB =>
        cases he
        exact propBinary_rg _ _ _ _ hB (hb p) h0
      · next T hB =>
        have h1 := propBinary_rg _ _ _ _ hB (hb p) h0
        split at he
        · cases he
        · next s1 c hW => cases he; exact propWatched_rg _ _ _ _ _ hW (hw p) h1
        · next s1 hW =>
          exact propagateLoop_rg hb fuel s1 s' r he (propWatched_src (P := G) _ _ _ _ _ hW hw (hw p) (by simp)).1
            (propWatched_rg _ _ _ _ _ hW (hw p) h1)

/-! ### Conflict analysis -/

theorem scanClause_stamp {T : Trail} (a : Option Lit) : ∀ (ls : List Lit) (st : AS) (v : Nat),
    (scanClause T a ls st).stamp v = true → st.stamp v = true ∨ ∃ l ∈ ls, l.var = v
  | [], st, v, h => .inl h
  | l :: ls, st, v, h => by
    unfold scanClause at h
    rw [List.foldl_cons] at h
    have ih := scanClause_stamp (T := T) a ls
    unfold scanClause at ih
    rcases ih _ v h with h | ⟨m, hm, he⟩
    · split at h
      · have : upd st.stamp l.var true v = true := by
          dsimp only at h
          split at h
          · exact h
          · split at h <;> exact h
        rw [upd_apply] at this
        split at this
        · next he => exact .inr ⟨l, by simp, he.symm⟩
        · exact .inl this
      · exact .inl h
    · exact .inr ⟨m, by simp [hm], he⟩

/-- All variables in the clause satisfy `P`. -/
def ClsIn (P : Nat → Prop) (store : Nat → Cls) (c : Nat) : Prop := ∀ l ∈ (store c).lits, P l.var

theorem analyzeLoop_vars {store : Nat → Cls} {T : Trail} (hr : ∀ v c, T.reason v = some c → ClsIn P store c) :
    ∀ (fuel confl : Nat) (a : Option Lit) (R : List Lit) (st : AS) (p : Lit) (st' : AS),
      analyzeLoop store T fuel confl a R st = some (p, st') → ClsIn P store confl →
      (∀ v, st.stamp v = true → P v) → (∀ l ∈ st.learnt, P l.var) → (∀ c ∈ st.involved, ClsIn P store c) →
      P p.var ∧ (∀ l ∈ st'.learnt, P l.var) ∧ ∀ c ∈ st'.involved, ClsIn P store c
  | 0, _, _, _, _, _, _, he, _, _, _, _ => by cases he
  | fuel + 1, confl, a, R, st, p, st', he, hc, h1, h2, h3 => by
    rw [analyzeLoop] at he
    dsimp only at he
    obtain ⟨l1, l2⟩ := scanClause_learnt (T := T) a (store confl).lits { st with involved := st.involved ++ [confl] }
    have s1 := scanClause_stamp (T := T) a (store confl).lits { st with involved := st.involved ++ [confl] }
    generalize scanClause T a (store confl).lits { st with involved := st.involved ++ [confl] } = st1 at he l1 l2 s1
    have k1 : ∀ v, st1.stamp v = true → P v := by
      intro v hv
      rcases s1 v hv with h | ⟨l, hl, rfl⟩
      · exact h1 v h
      · exact hc l hl
    have k2 : ∀ l ∈ st1.learnt, P l.var := by
      intro l hl
      rcases l1 l hl with h | h
      · exact h2 l h
      · exact hc l h
    have k3 : ∀ c ∈ st1.involved, ClsIn P store c := by
      intro c hm
      rw [l2] at hm
      rcases List.mem_append.1 hm with h | h
      · exact h3 c h
      · rw [List.mem_singleton.1 h]; exact hc
    split at he
    · cases he
    · next q R' hd =>
      have hq : P q.var := by
        have hm : q ∈ R.dropWhile (fun l => !st1.stamp l.var) := by rw [hd]; simp
        have hh := List.head?_dropWhile_not (p := fun l => !st1.stamp l.var) (l := R)
        rw [hd] at hh
        simp only [List.head?_cons] at hh
        exact k1 _ (by simpa using hh)
      have k1' : ∀ v, upd st1.stamp q.var false v = true → P v := by
        intro v hv
        rw [upd_apply] at hv
        split at hv
        · cases hv
        · exact k1 v hv
      split at he
      · split at he
        · cases he
        · next c hrc => exact analyzeLoop_vars hr fuel c _ _ _ p st' he (hr _ _ hrc) k1' k2 k3
      · cases he
        exact ⟨hq, k2, k3⟩

theorem analyzeLoop_mono {store : Nat → Cls} {T : Trail} {f : Nat → Option Nat} (hf : ∀ v c, f v = some c → T.reason v = some c) :
    ∀ (fuel confl : Nat) (a : Option Lit) (R : List Lit) (st : AS) (x : Lit × AS),
      analyzeLoop store { T with reason := f } fuel confl a R st = some x → analyzeLoop store T fuel confl a R st = some x
  | 0, _, _, _, _, _, he => by cases he
  | fuel + 1, confl, a, R, st, x, he => by
    rw [analyzeLoop] at he ⊢
    have hsc : ∀ st, scanClause { T with reason := f } a (store confl).lits st = scanClause T a (store confl).lits st :=
      fun _ => rfl
    rw [hsc] at he
    dsimp only at he ⊢
    generalize scanClause T a (store confl).lits { st with involved := st.involved ++ [confl] } = st1 at he ⊢
    split at he
    · cases he
    · next q R' hd =>
      split at he
      · next hp =>
        rw [if_pos hp]
        split at he
        · cases he
        · next c hc =>
          rw [hf _ _ hc]
          exact analyzeLoop_mono hf fuel c _ _ _ x he
      · next hp => rw [if_neg hp]; exact he

theorem handleConflict_vars {nV next : Nat} {bin : Lit → List Watcher} {store : Nat → Cls} {T : Trail} {confl : Nat}
    {r : AnalysisResult} (h : Core F nV next bin store T) (hdl : 0 < T.decisionLevel) (hc : Conflict next store T confl)
    (hv : ∀ c, G c → ClsIn P store c) (hr : RG G T) (hg : G confl) (he : handleConflict store bin T confl = some r) :
    (∀ l ∈ r.learnt, P l.var) ∧ ∀ c ∈ r.involved, ClsIn P store c := by
  let f : Nat → Option Nat := fun v => if T.level v = 0 ∨ T.assigns v = none then none else T.reason v
  have hf : ∀ v c, f v = some c → T.reason v = some c := by
    intro v c h
    simp only [f] at h
    split at h
    · cases h
    · exact h
  have hfG : ∀ v c, f v = some c → ClsIn P store c := by
    intro v c h
    simp only [f] at h
    split at h
    · cases h
    · next hn =>
      rw [not_or] at hn
      exact hv c ((hr v c hn.2 h).resolve_right hn.1)
  have h2 : Core F nV next bin store { T with reason := f } := {
    tinv := ⟨h.tinv.val, h.tinv.nodup, h.tinv.bound, h.tinv.limSorted, h.tinv.limLe, h.tinv.lev, h.tinv.qle⟩
    nv := h.nv
    wf := h.wf
    nd := h.nd
    ent := h.ent
    rsome := fun pre p post c e1 e2 => h.rsome pre p post c e1 (hf _ _ e2)
    rnone := by
      intro pre p post e1 e2
      have hm : p ∈ T.stack := by rw [show T.stack = _ from e1]; simp
      by_cases hl : T.level p.var = 0
      · exact .inl ⟨by show T.level p.var ≤ 0; omega, h.level0 hm hl⟩
      · have ha : T.assigns p.var ≠ none := by rw [h.tinv.assigned_iff]; exact ⟨p, hm, rfl⟩
        have : f p.var = T.reason p.var := by simp only [f]; rw [if_neg (by rw [not_or]; exact ⟨hl, ha⟩)]
        rw [show ({ T with reason := f } : Trail).reason p.var = T.reason p.var from this] at e2
        exact h.rnone pre p post e1 e2
    binInv := h.binInv }
  have hc2 : Conflict next store { T with reason := f } confl := ⟨hc.lt, hc.allFalse, hc.top⟩
  obtain ⟨first, rest, inv, e1, -⟩ := analyze_spec h2 hdl hc2
  unfold analyze at e1
  split at e1
  · cases e1
  next p st e2 =>
  have e3 := analyzeLoop_mono hf _ _ _ _ _ _ e2
  obtain ⟨v1, v2, v3⟩ := analyzeLoop_vars (P := P) hfG _ _ _ _ _ _ _ e2 (hv _ hg) (by simp) (by simp) (by simp)
  unfold handleConflict analyze at he
  rw [e3] at he
  dsimp only at he
  cases hm : minimization store T st.learnt st.stamp with
  | none => rw [hm] at he; cases he
  | some ls =>
    rw [hm] at he
    dsimp only at he
    have hls : ∀ l ∈ minimizeBinary bin T p.neg ls, P l.var := by
      intro l hl
      unfold minimizeBinary at hl
      have hl := (List.mem_filter.1 hl).1
      unfold minimization at hm
      rcases minimizeLoop_mem _ _ _ _ hm l hl with h | h
      · cases h
      · exact v2 l h
    generalize minimizeBinary bin T p.neg ls = rs at he hls
    cases rs with
    | nil =>
      cases he
      refine ⟨?_, v3⟩
      intro l hl
      rw [List.mem_singleton.1 hl, Lit.var_neg]; exact v1
    | cons s rs =>
      dsimp only at he
      cases he
      refine ⟨?_, v3⟩
      intro l hl
      rcases List.mem_cons.1 hl with rfl | hl
      · rw [Lit.var_neg]; exact v1
      · exact hls l ((pickSecond_spec T rs s).1.mem_iff.1 hl)

/-! ### Search -/

/-- Clauses that may be reasons and conflicts: at least two literals. -/
def Long (db : DB) (c : Nat) : Prop := c < db.next ∧ 2 ≤ (db.lits c).length

/-- The variables of all clauses with at least two literals satisfy `P`, and reasons are such clauses. -/
structure CVars (P : Nat → Prop) (s : Solver) : Prop where
  all : AllK false (LongIn P) s.db
  rg : RG (Long s.db) s.trail

theorem AllK.longIn {db : DB} (h : AllK false (LongIn P) db) {c : Nat} (hc : Long db c) : ClsIn P db.store c :=
  h c hc.1 hc.2

theorem Long.ofPerm {db : DB} {st : Nat → Cls} (h : StoreExt db.store st) {c : Nat} :
    Long db c ↔ Long { db with store := st } c := by
  unfold Long DB.lits
  rw [(h c).1.length_eq]

theorem CVars.propagate {A : Nat → Prop} {s : Solver} {ps : PS} {r : Option Nat} (hi : SInv F A s) (h : CVars P s)
    (he : propagateLoop s.db.bin (s.db.nVars + 1) ⟨s.db.store, s.watch, s.trail⟩ = some (ps, r)) :
    CVars P { s with db := { s.db with store := ps.store }, watch := ps.watch, trail := ps.T } ∧
      ∀ c, r = some c → Long { s.db with store := ps.store } c := by
  obtain ⟨ps', r', e1, e2, e3, e4, e5, -⟩ := propagateLoop_spec (A := A)
    (s.db.nVars + 1) ⟨s.db.store, s.watch, s.trail⟩ hi.core hi.watch hi.limq (by omega)
  rw [he] at e1
  simp only [Option.some.injEq, Prod.mk.injEq] at e1
  obtain ⟨rfl, rfl⟩ := e1
  have hw : ∀ q, ∀ w ∈ s.watch q, Long s.db w.cref := by
    intro q w hw
    obtain ⟨w1, -, x, y, rr, w2, -⟩ := hi.watch.wmem q w hw
    refine ⟨w1, ?_⟩
    unfold DB.lits; rw [w2]; simp
  have hb : ∀ q, ∀ w ∈ s.db.bin q, Long s.db w.cref := by
    intro q w hw
    obtain ⟨w1, w2⟩ := hi.core.binInv q w hw
    refine ⟨w1, ?_⟩
    unfold DB.lits
    rcases w2 with w2 | w2 <;> rw [w2] <;> simp
  have hrg := propagateLoop_rg hb _ _ _ _ he hw h.rg
  have hsrc := (propagateLoop_src _ _ _ _ he hw).2
  refine ⟨⟨h.all.ofPerm (hered_longIn P) rfl rfl fun c => (e5 c).1, hrg.mono fun c hc => (Long.ofPerm e5).1 hc⟩, ?_⟩
  intro c hc
  refine (Long.ofPerm e5).1 ?_
  rcases hsrc c hc with h | ⟨p, w, hw, rfl⟩
  · exact h
  · exact hb p w hw

theorem assumeLoop_rg : ∀ (ps : List Lit) {T : Trail}, RG G T → RG G (assumeLoop T ps).1
  | [], _, h => h
  | p :: ps, T, h => by
    unfold assumeLoop
    split
    · exact assumeLoop_rg ps (T := T.newDecisionLevel) h
    · exact h
    · exact h

theorem CVars.learn {s s' : Solver} {confl : Nat} {r : AnalysisResult} (h : CVars P s)
    (hl : ∀ l ∈ r.learnt, P l.var) (h0 : 2 ≤ r.learnt.length ∨ r.btlevel = 0)
    (hr : handleConflict s.db.store s.db.bin s.trail confl = some r) (he : learnStep s confl = some s') : CVars P s' := by
  unfold learnStep at he
  rw [hr] at he
  dsimp only at he
  obtain ⟨f1, f2, f3⟩ := reestimate_frame s.db s.recalc s.trail r.involved
  have fl : ∀ c, (s.db.reestimate s.recalc s.trail r.involved).lits c = s.db.lits c :=
    reestimate_lits s.db s.recalc s.trail r.involved
  generalize s.db.reestimate s.recalc s.trail r.involved = db at he f1 f2 f3 fl
  have ha : AllK false (LongIn P) db := h.all.ofPerm (hered_longIn P) f3 f1 fun c => by rw [fl]
  split at he
  · next watch first rest hw hlr =>
    cases he
    refine ⟨ha.createClause (fun _ => hl) _ _, ?_⟩
    have hlong : ∀ c, Long s.db c → Long (db.createClause r.learnt r.lbd).1 c := by
      intro c hc
      refine ⟨?_, ?_⟩
      · rw [createClause_next, f3]; exact Nat.lt_succ_of_lt hc.1
      · rw [createClause_lits, if_neg (by rw [f3]; exact Nat.ne_of_lt hc.1), fl]; exact hc.2
    have hb : RG (Long (db.createClause r.learnt r.lbd).1) (s.trail.backtrack r.btlevel) :=
      (h.rg.backtrack _).mono hlong
    by_cases h2 : 2 ≤ r.learnt.length
    · refine hb.propagate _ ⟨?_, ?_⟩
      · rw [createClause_next, createClause_id]; exact Nat.lt_succ_self _
      · rw [createClause_lits, createClause_id, if_pos rfl]; exact h2
    · have hz := h0.resolve_left h2
      rw [hz] at hb ⊢
      show RG (Long (db.createClause r.learnt r.lbd).1) ((s.trail.backtrack 0).propagate first (db.createClause r.learnt r.lbd).2)
      have hdl : (s.trail.backtrack 0).decisionLevel = 0 := by
        unfold Trail.decisionLevel Trail.backtrack
        split
        · next hn =>
          rw [List.getElem?_eq_none_iff] at hn
          omega
        · simp
      unfold Trail.propagate
      split
      · exact hb
      · intro v d g1 g2
        simp only [Trail.setValue, upd_apply] at g1 g2 ⊢
        by_cases hv : v = first.var
        · right; rw [if_pos hv]; exact hdl
        · rw [if_neg hv] at g1 g2 ⊢
          exact hb v d g1 g2
  · cases he

theorem handleConflict_short {store : Nat → Cls} {bin : Lit → List Watcher} {T : Trail} {confl : Nat} {r : AnalysisResult}
    (he : handleConflict store bin T confl = some r) : 2 ≤ r.learnt.length ∨ r.btlevel = 0 := by
  unfold handleConflict at he
  split at he
  · cases he
  · next first rest inv _ =>
    dsimp only at he
    cases rest with
    | nil => cases he; exact .inr rfl
    | cons s rs => cases he; left; simp

/-- What a conflict of search contributes. -/
theorem conflict_vars {A : Nat → Prop} {s : Solver} {ps : PS} {confl : Nat} {r : AnalysisResult} (hi : SInv F A s)
    (h : CVars P s)
    (he : propagateLoop s.db.bin (s.db.nVars + 1) ⟨s.db.store, s.watch, s.trail⟩ = some (ps, some confl))
    (hdl : ps.T.decisionLevel ≠ 0) (hr : handleConflict ps.store s.db.bin ps.T confl = some r) :
    (∀ l ∈ r.learnt, P l.var) ∧ ∀ c ∈ r.involved, ClsIn P ps.store c := by
  obtain ⟨hp, hl⟩ := h.propagate hi he
  obtain ⟨ps', r', e1, e2, e3, e4, e5, -, e7, -⟩ := propagateLoop_spec (A := A)
    (s.db.nVars + 1) ⟨s.db.store, s.watch, s.trail⟩ hi.core hi.watch hi.limq (by omega)
  rw [he] at e1
  simp only [Option.some.injEq, Prod.mk.injEq] at e1
  obtain ⟨rfl, rfl⟩ := e1
  exact handleConflict_vars e2 (Nat.pos_of_ne_zero hdl) (e7 _ rfl) (fun c hc => hp.all.longIn hc) hp.rg (hl _ rfl) hr

theorem searchIter_cvars {A : Nat → Prop} {s : Solver} {ch : Choice} {out : IterOut} (hi : SInv F A s) (h : CVars P s)
    (he : searchIter s ch = some out) : CVars P out.solver := by
  unfold searchIter at he
  split at he
  · cases he
  next ps confl hp =>
  have h1 := (h.propagate hi hp).1
  dsimp only at he
  split at he
  · next c =>
    split at he
    · cases he; exact h1
    · next hdl =>
      obtain ⟨s', hs', rfl⟩ := Option.map_eq_some_iff.1 he
      cases hr : handleConflict ps.store s.db.bin ps.T c with
      | none =>
        unfold learnStep at hs'
        rw [hr] at hs'; cases hs'
      | some r =>
        exact h1.learn (conflict_vars hi h hp hdl hr).1 (handleConflict_short hr) hr hs'
  · split at he
    · cases he; exact h1
    · have hT := assumeLoop_rg (ps.T.assumptions.drop ps.T.decisionLevel) h1.rg
      split at he
      · next T p hA => cases he; rw [hA] at hT; exact ⟨h1.all, hT⟩
      · next T p hA =>
        cases he; rw [hA] at hT
        exact ⟨h1.all, RG.decide (T := T.newDecisionLevel) hT p⟩
      · next T hA =>
        rw [hA] at hT
        split at he
        · cases he; exact ⟨h1.all, hT⟩
        · next p _ => cases he; exact ⟨h1.all, RG.decide (T := T.newDecisionLevel) hT p⟩

/-! ### The heuristic -/

theorem reinsert_cent {ord : Orders} {d : Nat → Bool} : ∀ (ls : List Lit) {k : Nat} {b b' : Branch},
    Branch.reinsert ord d k ls b = some b' → b'.cent = b.cent
  | [], k, b, b', h => by cases h; rfl
  | l :: ls, k, b, b', h => by
    unfold Branch.reinsert at h
    dsimp only at h
    split at h
    · obtain ⟨hp, -, h⟩ := Option.bind_eq_some_iff.1 h
      have := reinsert_cent ls h
      exact this
    · have := reinsert_cent ls h
      exact this

theorem bumpVars_mem {v : Nat} : ∀ {ls : List Lit} {seen : List Nat}, v ∈ Branch.bumpVars seen ls → ∃ l ∈ ls, l.var = v
  | [], _, h => by cases h
  | l :: ls, seen, h => by
    unfold Branch.bumpVars at h
    split at h
    · obtain ⟨m, h1, h2⟩ := bumpVars_mem h
      exact ⟨m, .tail _ h1, h2⟩
    · rcases List.mem_cons.1 h with rfl | h
      · exact ⟨l, .head _, rfl⟩
      · obtain ⟨m, h1, h2⟩ := bumpVars_mem h
        exact ⟨m, .tail _ h1, h2⟩

theorem lookups_cent {kind : Branch.Kind} {vs : List Nat} {b : Branch} {c : Cent} (hc : b.cent = some c)
    (h : ∀ v ∈ vs, c.InRange v) : b.lookups kind vs = some b := by
  unfold Branch.lookups
  rw [hc]
  dsimp only
  split
  · rw [Cent.lookups_inRange h, Option.map_some, ← hc]
  · rfl

theorem pickHeap_cent {ord : Orders} {b b' : Branch} {T : Trail} {r : Option Lit} (h : b.pickHeap ord T = some (b', r)) :
    b'.cent = b.cent := by
  obtain ⟨x, -, hx⟩ := Option.map_eq_some_iff.1 h
  cases hx; rfl

theorem pick_cent {ord : Orders} {b b' : Branch} {T : Trail} {r : Option Lit} (h : b.pick ord T = some (b', r)) :
    b'.cent = b.cent := by
  unfold Branch.pick at h
  split at h
  · exact pickHeap_cent h
  · split at h
    · unfold Branch.pickRsil at h
      split at h
      · cases h
      · cases h; rfl
      · split at h
        · cases h
        · next hp => have := pickHeap_cent hp; cases h; exact this
        · next hp => have := pickHeap_cent hp; cases h; exact this
    · exact pickHeap_cent h

variable {kind : Branch.Kind}

theorem involved_inRange {A : Nat → Prop} {s : Solver} {ps : PS} {confl : Nat} {r : AnalysisResult} (hi : SInv F A s)
    (h : CVars P s)
    (he : propagateLoop s.db.bin (s.db.nVars + 1) ⟨s.db.store, s.watch, s.trail⟩ = some (ps, some confl))
    (hdl : ps.T.decisionLevel ≠ 0) (hr : handleConflict ps.store s.db.bin ps.T confl = some r) :
    ∀ v ∈ (if kind.vsids = true then Branch.bumpVars [] (involvedLits ps.store r.involved) else []), P v := by
  intro v hv
  split at hv
  · obtain ⟨l, hl, rfl⟩ := bumpVars_mem hv
    obtain ⟨c, hc, hl⟩ := List.mem_flatMap.1 hl
    exact (conflict_vars hi h he hdl hr).2 c hc l hl
  · cases hv

theorem searchIterB_cent {A : Nat → Prop} {s : Solver} {b b' : Branch} {c : BChoice} {ct : Cent} {out : IterOut}
    (hi : SInv F A s) (hb : BInv s.trail b) (hc : b.cent = some ct) (h : CVars ct.InRange s)
    (he : searchIterB kind s b c = some (out, b')) : b'.cent = some ct ∧ CVars ct.InRange out.solver := by
  refine ⟨?_, searchIter_cvars hi h ((searchIterB_spec hi hb c).1 _ _ he).1⟩
  unfold searchIterB at he
  split at he
  · cases he
  next ps confl hp =>
  dsimp only at he
  split at he
  · next confl =>
    split at he
    · cases he; exact hc
    next hdl =>
    split at he
    · cases he
    next r hr =>
    split at he
    · cases he
    next b1 h1 =>
    obtain ⟨s', -, he⟩ := Option.map_eq_some_iff.1 he
    cases he
    unfold Branch.processConflict at h1
    split at h1
    · cases h1
    · dsimp only at h1
      rw [lookups_cent hc (involved_inRange hi h hp hdl hr)] at h1
      simp only [Option.bind_some] at h1
      obtain ⟨hp, -, h1⟩ := Option.bind_eq_some_iff.1 h1
      split at h1
      · cases h1
      · rw [reinsert_cent _ h1]; exact hc
  · split at he
    · cases he; exact hc
    split at he
    · cases he; exact hc
    · cases he; exact hc
    · split at he
      · cases he
      · next hp => cases he; rw [pick_cent hp]; exact hc
      · next hp => cases he; rw [pick_cent hp]; exact hc

theorem searchIterB_defined {A : Nat → Prop} {s : Solver} {b : Branch} {ct : Cent}
    (hi : SInv F A s) (hb : BInv s.trail b) (hc : b.cent = some ct) (h : CVars ct.InRange s) (hk : kind.extraBump = false)
    (c : BChoice) : ∃ out b', searchIterB kind s b c = some (out, b') :=
  (searchIterB_spec hi hb c).2 hk fun _ _ _ hp hdl hr => ⟨b, lookups_cent hc (involved_inRange hi h hp hdl hr)⟩

theorem searchB_cent : ∀ (n : Nat) (o : Nat → BChoice) (A : Nat → Prop) (s : Solver) (b : Branch) (ct : Cent),
    SInv F A s → BInv s.trail b → b.cent = some ct → CVars ct.InRange s → ∀ s' r b',
    searchB kind n o s b = some (s', r, b') → b'.cent = some ct ∧ AllK false (LongIn ct.InRange) s'.db := by
  intro n
  induction n with
  | zero => intro o A s b ct _ _ _ _ s' r b' he; cases he
  | succ n ih =>
    intro o A s b ct hs hb hc hv s' r b' he
    simp only [searchB] at he
    split at he
    · cases he
    · next s1 r1 b1 h1 =>
      cases he
      obtain ⟨e1, e2⟩ := searchIterB_cent hs hb hc hv h1
      exact ⟨e1, e2.all⟩
    · next s1 b1 h1 =>
      obtain ⟨e1, e2⟩ := searchIterB_cent hs hb hc hv h1
      obtain ⟨g1, g2⟩ := (searchIterB_spec hs hb (o 0)).1 _ _ h1
      obtain ⟨out, e', hok⟩ := searchIter_spec hs (b.choice_valid (o 0))
      rw [g1] at e'
      cases e'
      obtain ⟨_, _, _, A', _, hS, _⟩ := hok
      exact ih (fun i => o (i + 1)) A' s1 b1 ct hS g2 e1 e2 s' r b' he

theorem reset_cent {lt} {b b' : Branch} {T : Trail} (h : b.reset lt T = some b') : b'.cent = b.cent := by
  simp only [Branch.reset, Option.map_eq_some_iff] at h
  obtain ⟨h', -, rfl⟩ := h
  rfl

/-! ### A new graph -/

/-- The clauses the graph is made of. -/
def liveClauses (db : DB) : List Clause := (db.clauses.filter fun c => !(db.store c).isDeleted).map fun c => db.lits c

theorem live_finished {rtl : Bool} {db : DB} {g : VarGraph} (hd : DBOk F db)
    (h : VarGraph.ofClauses rtl db.nVars (liveClauses db) = some g) : VarGraph.Finished db.nVars (liveClauses db) g := by
  obtain ⟨g', h1, h2⟩ := VarGraph.ofClauses_spec rtl (nv := db.nVars) (cs := liveClauses db) (by
    intro c hc
    refine ⟨?_, ?_⟩
    · rintro rfl
      rw [VarGraph.ofClauses_empty rtl hc] at h; cases h
    · obtain ⟨i, hi, rfl⟩ := List.mem_map.1 hc
      have := hd.mem i (List.mem_filter.1 hi).1
      exact ⟨hd.nd i this, hd.wf i this⟩)
  rw [h] at h1; cases h1
  exact h2

theorem update_longIn {nv : Nat} {db : DB} {g : VarGraph} (hd : DBOk F db) (hg : VarGraph.Finished nv (liveClauses db) g)
    (hall : ∀ c < db.next, c ∈ db.clauses ∧ (db.store c).isDeleted = false) (ct : Cent) :
    AllK false (LongIn (ct.update nv g).InRange) db := by
  intro c hc hlen l hl
  have hc : c < db.next := hc
  have hm : db.lits c ∈ liveClauses db :=
    List.mem_map.2 ⟨c, List.mem_filter.2 ⟨(hall c hc).1, by rw [(hall c hc).2]; rfl⟩, rfl⟩
  have hex : ∃ m ∈ db.lits c, m.var ≠ l.var := by
    have hn : ((db.lits c).map Lit.var).Nodup := hd.nd c hc
    match hls : db.lits c, hlen with
    | x :: y :: r, _ =>
      rw [hls] at hn
      simp only [List.map_cons, List.nodup_cons, List.mem_cons, not_or] at hn
      by_cases hx : x.var = l.var
      · exact ⟨y, by simp, fun hy => hn.1.1 (hx.trans hy.symm)⟩
      · exact ⟨x, by simp, hx⟩
  obtain ⟨m, hm1, hm2⟩ := hex
  have hs : VarGraph.Share (liveClauses db) l.var m.var := ⟨fun h => hm2 h.symm, _, hm, ⟨l, hl, rfl⟩, m, hm1, rfl⟩
  exact (Cent.update_spec hg ct ⟨_, _, hs⟩ l.var).1 ((hg.mem _).2 ⟨_, hs⟩)

theorem reduceStep_all {cfg : Config} {r : Round} {sys sys' : Sys} (h : r.trigger = true)
    (he : reduceStep cfg r sys = some sys') :
    ∀ c < sys'.sol.db.next, c ∈ sys'.sol.db.clauses ∧ (sys'.sol.db.store c).isDeleted = false := by
  unfold Candy.reduceStep at he
  rw [if_pos h] at he
  dsimp only at he
  obtain ⟨sys1, -, rfl⟩ := Option.map_eq_some_iff.1 he
  intro c hc
  refine ⟨?_, ?_⟩
  · show c ∈ sys1.sol.db.reorganize.clauses
    rw [reorganize_clauses, List.mem_range]; exact hc
  · obtain ⟨i, -, -, hi, he⟩ := reorganize_get (db := sys1.sol.db) hc
    show (sys1.sol.db.reorganize.store c).isDeleted = false
    rw [he]; exact hi

/-- After `process_reduce` the table covers all clauses, provided it is new or did so before. -/
theorem reduceB_cent {cfg : Config} {r : RoundB} {o : Nat → Choice} {sys sys' : Sys} {b b' : Branch} {ct : Cent}
    (hp : PInv F sys) (hs : ∀ xs, ∀ x ∈ r.sort xs, x ∈ xs) (hc : b.cent = some ct)
    (h1 : reduceStep cfg (r.with o) sys = some sys') (h : reduceB r sys' b = some b')
    (hf : Fresh r b ∨ AllK false (LongIn ct.InRange) sys.sol.db) :
    ∃ ct', b'.cent = some ct' ∧ AllK false (LongIn ct'.InRange) sys'.sol.db := by
  have hp' := (hp.reduceStep (r := r.with o) hs h1).1
  have keep : ∀ ct : Cent, AllK false (LongIn ct.InRange) sys.sol.db → AllK false (LongIn ct.InRange) sys'.sol.db :=
    fun ct h => h.reduceStep (r := r.with o) (hered_longIn _) hp hs h1
  unfold reduceB at h
  by_cases ht : r.trigger = true
  · rw [if_pos ht] at h
    unfold Branch.processReduce at h
    rw [hc] at h
    dsimp only at h
    split at h
    · obtain ⟨g, hg, h⟩ := Option.bind_eq_some_iff.1 h
      have hfin := live_finished hp'.db hg
      have hall := update_longIn hp'.db hfin (reduceStep_all (r := r.with o) ht h1) ct
      split at h
      · exact ⟨_, reset_cent h, hall⟩
      · cases h; exact ⟨_, rfl, hall⟩
    · next hn =>
      cases h
      refine ⟨ct, hc, keep _ (hf.resolve_left ?_)⟩
      rintro ⟨-, c, e1, e2⟩
      rw [hc] at e1; cases e1
      exact hn e2
  · rw [if_neg ht] at h
    cases h
    exact ⟨ct, hc, keep _ (hf.resolve_left fun h => ht h.1)⟩

theorem start_cent {cfg : Config} {r : RoundB} {o : Nat → Choice} {sys sys' : Sys} {s : Solver} {b b' b'' : Branch} {lt}
    {ct : Cent} (ih : InSolveOk F as sys) (hs : ∀ xs, ∀ x ∈ r.sort xs, x ∈ xs) (hc : b.cent = some ct)
    (h0 : b.reset lt sys.sol.trail.reset = some b')
    (h1 : reduceStep cfg (r.with o) { sys with sol := { sys.sol with trail := sys.sol.trail.reset } } = some sys')
    (h4 : reduceB r sys' b' = some b'') (h2 : materialize sys'.sol = some s)
    (hf : Fresh r b ∨ AllK false (LongIn ct.InRange) sys.sol.db) :
    ∃ ct', b''.cent = some ct' ∧ AllK false (LongIn ct'.InRange) s.db ∧
      (s.db.hasEmpty = false → CVars ct'.InRange s) := by
  have hc' : b'.cent = some ct := (reset_cent h0).trans hc
  have hf' : Fresh r b' ∨ AllK false (LongIn ct.InRange) sys.sol.db := by
    refine hf.imp_left fun h => ?_
    unfold Fresh
    rw [reset_cent h0]; exact h
  obtain ⟨a1, -⟩ := ih.inv.reset.reduceStep (r := r.with o) hs h1
  obtain ⟨ct', e1, e2⟩ := reduceB_cent (cfg := cfg) (o := o)
    (sys := { sys with sol := { sys.sol with trail := sys.sol.trail.reset } }) ih.inv.reset hs hc' h1 h4 hf'
  have hall := e2.materialize (hered_longIn _) a1 h2
  refine ⟨ct', e1, hall, fun h3 => ⟨hall, ?_⟩⟩
  obtain ⟨s', m1, m2, -⟩ := a1.materialize
  rw [h2] at m1; cases m1
  have hl := m2.l0 h3
  intro v c g1 g2
  obtain ⟨l, hl1, rfl⟩ := (hl.core.tinv.assigned_iff v).1 g1
  rw [hl.rz l hl1] at g2; cases g2

theorem reduceB_defined {cfg : Config} {r : RoundB} {o : Nat → Choice} {sys sys' : Sys} {b : Branch}
    (hp : PInv F sys) (hs : ∀ xs, ∀ x ∈ r.sort xs, x ∈ xs) (hne : sys.sol.db.hasEmpty = false)
    (h1 : reduceStep cfg (r.with o) sys = some sys') (hb : sys'.sol.trail.nVars ≤ b.heap.isize) :
    ∃ b', reduceB r sys' b = some b' := by
  have hp' := (hp.reduceStep (r := r.with o) hs h1).1
  have ha : AllK true (fun c => c ≠ []) sys.sol.db := by
    intro c hc hl
    have := hp.db.emptAll c hc hl
    rw [hne] at this; cases this
  have ha' := ha.reduceStep (r := r.with o) hered_nonempty hp hs h1
  have hd : ∃ g, VarGraph.ofClauses r.rtl sys'.sol.db.nVars (liveClauses sys'.sol.db) = some g := by
    obtain ⟨g, hg, -⟩ := VarGraph.ofClauses_spec r.rtl (nv := sys'.sol.db.nVars) (cs := liveClauses sys'.sol.db) (by
      intro c hc
      obtain ⟨i, hi, rfl⟩ := List.mem_map.1 hc
      have hi := (List.mem_filter.1 hi).1
      exact ⟨ha' i hi, hp'.db.nd i (hp'.db.mem i hi), hp'.db.wf i (hp'.db.mem i hi)⟩)
    exact ⟨g, hg⟩
  obtain ⟨g, hg⟩ := hd
  unfold reduceB
  split
  · unfold Branch.processReduce
    split
    · exact ⟨_, rfl⟩
    · split
      · unfold liveClauses DB.lits at hg
        rw [hg]
        simp only [Option.bind_some]
        split
        · exact reset_defined hb
        · exact ⟨_, rfl⟩
      · exact ⟨_, rfl⟩
  · exact ⟨_, rfl⟩

theorem solveRoundB_cent {cfg : Config} {r : RoundB} {sys sys' : Sys} {b b' : Branch} {ct : Cent}
    (ih : InSolveOk F as sys) (hb : BranchOk sys.sol.trail b) (hs : ∀ xs, ∀ x ∈ r.sort xs, x ∈ xs) (hc : b.cent = some ct)
    (hf : Fresh r b ∨ AllK false (LongIn ct.InRange) sys.sol.db)
    (he : solveRoundB kind cfg r sys b = some (sys', none, b')) :
    ∃ ct', b'.cent = some ct' ∧ AllK false (LongIn ct'.InRange) sys'.sol.db := by
  simp only [solveRoundB] at he
  split at he
  · cases he
  next b0 h0 =>
  split at he
  · cases he
  next sys1 h1 =>
  split at he
  · cases he
  next bR h4 =>
  split at he
  · cases he
  next sol h2 =>
  have hB := start_inv hb h0 h1 h4 h2
  obtain ⟨ct', e1, -, e3⟩ := start_cent (lt := r.resetOrd) ih hs hc h0 h1 h4 h2 hf
  by_cases h3 : sol.db.hasEmpty = true
  · simp only [h3, if_true, Option.some.injEq, Prod.mk.injEq] at he
    cases he.2.1
  · simp only [h3] at he
    have h3 : sol.db.hasEmpty = false := by simpa using h3
    obtain ⟨x, hx, he⟩ := Option.map_eq_some_iff.1 he
    obtain ⟨s', r', b1⟩ := x
    cases he
    have hS := sinv_start ih (r := r.with fun _ => ⟨false, fun _ => none⟩) hs h1 h2 h3
    exact ⟨ct', searchB_cent _ _ _ _ _ _ hS hB e1 (e3 h3) _ _ _ hx⟩

theorem CentLoop.inSolve {u : Usage} {sys : Sys} {b : Branch} (h : CentLoop kind u F as sys b) : InSolveB kind u F as sys b := by
  induction h with
  | first h cfg r hr hf he => exact h.round cfg r hr he
  | next h cfg r hr he ih => exact ih.round cfg r hr he

theorem CentLoop.ok {u : Usage} (hu : u.Valid) {sys : Sys} {b : Branch} (h : CentLoop kind u F as sys b) :
    ∃ ct, b.cent = some ct ∧ AllK false (LongIn ct.InRange) sys.sol.db := by
  induction h with
  | first h cfg r hr hf he =>
    obtain ⟨i1, i2⟩ := h.ok hu
    obtain ⟨c, hc, -⟩ := hf.2
    exact solveRoundB_cent (i1.ok hu) i2 (hu _ (hr anyChoice anyChoice_valid)).sort hc (.inl hf) he
  | next h cfg r hr he ih =>
    obtain ⟨i1, i2⟩ := h.inSolve.ok hu
    obtain ⟨c, hc, hf⟩ := ih
    exact solveRoundB_cent (i1.ok hu) i2 (hu _ (hr anyChoice anyChoice_valid)).sort hc (.inr hf) he

theorem CentSearching.searching {u : Usage} {s : Solver} {b : Branch} (h : CentSearching kind u F as s b) :
    SearchingB kind u F as s b := by
  induction h with
  | start h cfg r hr _ h0 h1 h4 h2 h3 => exact .start h cfg r hr h0 h1 h4 h2 h3
  | iter h c he ih => exact ih.iter c he

theorem CentSearching.ok {u : Usage} (hu : u.Valid) {s : Solver} {b : Branch} (h : CentSearching kind u F as s b) :
    ∃ ct, b.cent = some ct ∧ CVars ct.InRange s := by
  induction h with
  | start h cfg r hr hf h0 h1 h4 h2 h3 =>
    obtain ⟨i1, -⟩ := h.ok hu
    have hs := (hu _ (hr anyChoice anyChoice_valid)).sort
    rcases hf with hf | hf
    · obtain ⟨c, hc, -⟩ := hf.2
      obtain ⟨ct, e1, -, e3⟩ := start_cent (i1.ok hu) hs hc h0 h1 h4 h2 (.inl hf)
      exact ⟨ct, e1, e3 h3⟩
    · obtain ⟨c, hc, hf⟩ := hf.ok hu
      obtain ⟨ct, e1, -, e3⟩ := start_cent (i1.ok hu) hs hc h0 h1 h4 h2 (.inr hf)
      exact ⟨ct, e1, e3 h3⟩
  | iter h c he ih =>
    obtain ⟨ct, hc, hv⟩ := ih
    obtain ⟨i1, i2⟩ := h.searching.ok hu
    obtain ⟨e1, e2⟩ := searchIterB_cent (i1.ok hu).inv i2 hc hv he
    exact ⟨ct, e1, e2⟩

theorem solveRoundB_nonempty {cfg : Config} {r : RoundB} {sys sys' : Sys} {b b' : Branch}
    (ih : InSolveOk F as sys) (hb : BranchOk sys.sol.trail b) (hs : ∀ xs, ∀ x ∈ r.sort xs, x ∈ xs)
    (he : solveRoundB kind cfg r sys b = some (sys', none, b')) : sys'.sol.db.hasEmpty = false := by
  simp only [solveRoundB] at he
  split at he
  · cases he
  next b0 h0 =>
  split at he
  · cases he
  next sys1 h1 =>
  split at he
  · cases he
  next bR h4 =>
  split at he
  · cases he
  next sol h2 =>
  have hB := start_inv hb h0 h1 h4 h2
  by_cases h3 : sol.db.hasEmpty = true
  · simp only [h3, if_true, Option.some.injEq, Prod.mk.injEq] at he
    cases he.2.1
  · simp only [h3] at he
    have h3 : sol.db.hasEmpty = false := by simpa using h3
    obtain ⟨x, hx, he⟩ := Option.map_eq_some_iff.1 he
    obtain ⟨s', r', b1⟩ := x
    cases he
    have hS := sinv_start ih (r := r.with fun _ => ⟨false, fun _ => none⟩) hs h1 h2 h3
    obtain ⟨o', ho, hs', -⟩ := searchB_refines _ _ _ _ _ hS hB _ _ _ hx
    exact (search_spec _ _ _ _ hS ho _ _ hs').2.1.hasEmpty.trans h3

end Candy
