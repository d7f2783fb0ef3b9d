import Verif.Proofs.SimplifyTotal
import Verif.Proofs.Termination

/-!
# Every call of `solve` is defined

No stage dereferences a null or dangling pointer or reads a missing element, and every loop ends.
-/

namespace Candy

variable {F : CNF} {s s' : SDB}

/-! ### Asymmetric variable reduction -/

theorem asymDecide_some {v : Nat} : ∀ (xs : List Lit) (T : Trail) (l : Option Lit),
    (l ≠ none ∨ ∃ x ∈ xs, x.var = v) → (asymDecide v xs T l).2 ≠ none
  | [], T, l, h => by
    rcases h with h | ⟨x, hx, _⟩
    · exact h
    · simp at hx
  | x :: xs, T, l, h => by
    rw [asymDecide]
    split
    · rename_i hx
      refine asymDecide_some xs _ l ?_
      rcases h with h | ⟨y, hy, hyv⟩
      · exact Or.inl h
      · rcases List.mem_cons.1 hy with rfl | hy
        · exact (hx.1 hyv).elim
        · exact Or.inr ⟨y, hy, hyv⟩
    · exact asymDecide_some xs _ _ (Or.inl (by simp))

theorem asymScan_cons (v o : Nat) (os : List Nat) (st : AVS) :
    asymScan v (o :: os) st = (asymScan v [o] st).bind fun x =>
      if x.2 then asymScan v os x.1 else some (x.1, false) := by
  rw [asymScan, asymScan]
  split
  · rfl
  · simp [asymScan]
  · dsimp only
    split
    · simp [asymScan]
    · split
      · rfl
      · split
        · simp [asymScan]
        · split
          · split
            · rfl
            · split
              · rfl
              · simp [asymScan]
          · simp

theorem asymOne_total {v o : Nat} {st : AVS} (h : AOk F st) (ho : o < st.s.obj.length)
    (hv : ∀ c, st.s.obj[o]? = some (some c) → ∃ l ∈ st.s.db.lits c, l.var = v) :
    ∃ st' b, asymScan v [o] st = some (st', b) ∧ st'.s.obj.length = st.s.obj.length ∧
      ∀ x, x ≠ o → st'.s.obj[x]? = st.s.obj[x]? := by
  rw [asymScan]
  split
  · rename_i hc
    rw [List.getElem?_eq_none_iff] at hc
    omega
  · exact ⟨st, true, by simp [asymScan], rfl, fun _ _ => rfl⟩
  · rename_i c hc
    dsimp only
    split
    · exact ⟨st, true, by simp [asymScan], rfl, fun _ _ => rfl⟩
    · have hclt := h.ok.lt hc
      have hsome := asymDecide_some (v := v) (st.s.db.lits c) st.T.newDecisionLevel none (Or.inr (hv c hc))
      generalize hdec : asymDecide v (st.s.db.lits c) st.T.newDecisionLevel none = r at hsome
      obtain ⟨T1, l1⟩ := r
      let D := asymKeep v st.T (st.s.db.lits c)
      have hG : ∀ a, Sat a (F ++ unitsOf (D.map Lit.neg)) → Sat a F := fun a ha => (sat_append.1 ha).1
      have hcore1 := CoreB.newLevel (h.core.toBase h.lim hG 1) h.lim
      have hb1 : st.T.newDecisionLevel.decisionLevel ≤ 1 := by
        simp [Trail.newDecisionLevel, Trail.decisionLevel, h.lim]
      obtain ⟨a1, -⟩ := asymDecide_spec (v := v) (T0 := st.T)
        (ls := st.s.db.lits c) (st.s.db.lits c) st.T.newDecisionLevel none hcore1 hb1
        (h.ok.db.wf c hclt) (h.ok.db.nd c hclt) (fun _ h => h) (fun _ _ => rfl) (by
          intro x hx a ha
          have := sat_unitsOf.1 (sat_append.1 ha).2 x.neg (List.mem_map.2 ⟨x, hx, rfl⟩)
          exact ⟨x.neg, by simp, this⟩) T1 l1 hdec
      obtain ⟨ps, rr, e1, e2, e3, e4, e5, e6, e7, _, _⟩ := propagateLoop_specL (L := False)
        (A := fun _ => False) (st.s.db.nVars + 1) ⟨st.s.db.store, st.watch, T1⟩ a1 h.watch
        (fun h => h.elim) (by omega)
      simp only
      rw [e1]
      simp only
      cases rr with
      | none =>
        simp only [asymScan]
        exact ⟨_, _, rfl, rfl, fun _ _ => rfl⟩
      | some cf =>
        simp only
        split
        · cases l1 with
          | none => exact (hsome rfl).elim
          | some l =>
            simp only
            have hgp : GStep F st.s { st.s with db := { st.s.db with store := ps.store } } := .perm e5
            obtain ⟨s2, k1, -, -, -, k2, k3, -⟩ := strengthen_total (l := l) (hgp.sound h.ok).1
              (i := o) (c := c) hc
            simp only [k1, asymScan]
            exact ⟨_, _, rfl, k2, k3⟩
        · exact ⟨_, false, rfl, rfl, fun _ _ => rfl⟩

theorem asymScan_total {v : Nat} : ∀ (os : List Nat) (st : AVS), AOk F st → os.Nodup →
    (∀ o ∈ os, o < st.s.obj.length) →
    (∀ o ∈ os, ∀ c, st.s.obj[o]? = some (some c) → ∃ l ∈ st.s.db.lits c, l.var = v) →
    ∃ st' b, asymScan v os st = some (st', b)
  | [], st, _, _, _, _ => ⟨st, true, by simp [asymScan]⟩
  | o :: os, st, h, hn, hl, hv => by
    have hn' := List.nodup_cons.1 hn
    obtain ⟨st1, b, e1, e2, e3⟩ := asymOne_total h (hl o (by simp)) (hv o (by simp))
    obtain ⟨a1, a2, -, -⟩ := asymScan_spec [o] st h (by simp) (by
      intro x hx; simp at hx; subst hx; exact hv x (by simp)) st1 b e1
    rw [asymScan_cons, e1]
    cases b with
    | false => exact ⟨st1, false, rfl⟩
    | true =>
      obtain ⟨_, hx⟩ := a2.sound h.ok
      exact asymScan_total os st1 a1 hn'.2 (by
          intro x hx; rw [e2]; exact hl x (by simp [hx])) (by
          intro x hxm c hc
          have hxo : x ≠ o := fun e => hn'.1 (e ▸ hxm)
          rw [e3 x hxo] at hc
          obtain ⟨l, h1, h2⟩ := hv x (by simp [hxm]) c hc
          exact ⟨l, (hx.lits c (h.ok.lt hc)).mem_iff.2 h1, h2⟩)

theorem asymList_total : ∀ (vs : List Nat) (st : AVS), AOk F st →
    ∃ st' b, asymList vs st = some (st', b)
  | [], st, _ => ⟨st, true, rfl⟩
  | v :: vs, st, h => by
    rw [asymList]
    split
    · obtain ⟨st1, b, e⟩ := asymScan_total (st.s.occ v) st h (h.ok.occNd v) (h.ok.occLt v) (h.ok.occVar v)
      rw [e]
      cases b with
      | false => exact ⟨st1, false, rfl⟩
      | true =>
        exact asymList_total vs st1
          (asymScan_spec _ st h (h.ok.occNd v) (h.ok.occVar v) _ _ e).1
    · exact asymList_total vs st h

theorem asymAll_total {active : Bool} {st : AVS} (h : AOk F st) :
    ∃ st' b, asymAll active st = some (st', b) := by
  rw [asymAll]
  split
  · exact asymList_total _ st h
  · exact ⟨st, true, rfl⟩

/-! ### Variable elimination -/

theorem liveOcc_total {s : SDB} : ∀ (is : List Nat), (∀ i ∈ is, i < s.obj.length) →
    ∃ os, liveOcc s is = some os
  | [], _ => ⟨[], rfl⟩
  | i :: is, h => by
    obtain ⟨os, e⟩ := liveOcc_total is (fun j hj => h j (by simp [hj]))
    rw [liveOcc, e]
    have hi := h i (by simp)
    rw [List.getElem?_eq_getElem hi]
    cases s.obj[i] with
    | none => exact ⟨os, rfl⟩
    | some c => exact ⟨(i, c) :: os, rfl⟩

theorem removeAll_total : ∀ (is : List Nat) (s : SDB), is.Nodup →
    (∀ i ∈ is, ∃ c, s.obj[i]? = some (some c)) → ∃ s', removeAll is s = some s'
  | [], s, _, _ => ⟨s, rfl⟩
  | i :: is, s, hn, h => by
    have hn' := List.nodup_cons.1 hn
    obtain ⟨c, hc⟩ := h i (by simp)
    obtain ⟨s1, e, -, -, -, e2, -⟩ := remove_total hc
    rw [removeAll, e]
    refine removeAll_total is s1 hn'.2 ?_
    intro j hj
    rw [e2 j (fun e => hn'.1 (e ▸ hj))]
    exact h j (by simp [hj])

theorem createResolvents_obj {v : Nat} : ∀ (ps : List (Nat × Nat)) (s : SDB) (i : Nat) (c : Option Nat),
    s.obj[i]? = some c → (createResolvents v ps s).obj[i]? = some c
  | [], s, i, c, h => h
  | (p, n) :: ps, s, i, c, h => by
    rw [createResolvents]
    split
    · exact createResolvents_obj ps s i c h
    · refine createResolvents_obj ps _ i c ?_
      rw [create_obj, List.getElem?_append_left (List.getElem?_eq_some_iff.1 h).1, h]

theorem nodup_filter_split {α β : Type} (f : α → β) (p : α → Bool) (xs : List α)
    (h : (xs.map f).Nodup) : ((xs.filter p).map f ++ (xs.filter fun x => !p x).map f).Nodup := by
  rw [← List.map_append]
  have : (xs.filter p ++ xs.filter fun x => !p x).Perm xs := by
    have := List.filter_append_perm p xs
    simpa using this
  exact (this.map f).nodup_iff.2 h

/-- Stored clauses exist for every eliminated variable. -/
def VENe (ve : VE) : Prop := ∀ v ∈ ve.vars, ve.cls v ≠ []

theorem eliminateStep_total {lim : Nat} {st : VES} {v : Nat} (hs : SOk F st.s) :
    ∃ st' b, eliminateStep lim st v = some (st', b) ∧ (VENe st.ve → VENe st'.ve) := by
  rw [eliminateStep]
  split
  · obtain ⟨os, e⟩ := liveOcc_total (s := st.s) (st.s.occ v) (hs.occLt v)
    obtain ⟨h1, h2, -⟩ := liveOcc_spec _ _ e
    rw [e]
    simp only
    rw [eliminateVar]
    split
    · exact ⟨st, true, rfl, id⟩
    · rename_i hne
      dsimp only
      split
      · exact ⟨st, false, rfl, id⟩
      · exact ⟨st, true, rfl, id⟩
      · obtain ⟨s', e'⟩ := removeAll_total
          ((os.filter fun x => decide ((⟨v, false⟩ : Lit) ∈ st.s.db.lits x.2)).map Prod.fst ++
            (os.filter fun x => !decide ((⟨v, false⟩ : Lit) ∈ st.s.db.lits x.2)).map Prod.fst)
          (createResolvents v (pairs
            ((os.filter fun x => decide ((⟨v, false⟩ : Lit) ∈ st.s.db.lits x.2)).map Prod.snd)
            ((os.filter fun x => !decide ((⟨v, false⟩ : Lit) ∈ st.s.db.lits x.2)).map Prod.snd)) st.s)
          (nodup_filter_split _ _ _ (h1.nodup (hs.occNd v))) (by
            intro i hi
            have : i ∈ os.map Prod.fst := by
              rcases List.mem_append.1 hi with h | h
              · obtain ⟨x, hx, rfl⟩ := List.mem_map.1 h
                exact List.mem_map_of_mem (List.mem_filter.1 hx).1
              · obtain ⟨x, hx, rfl⟩ := List.mem_map.1 h
                exact List.mem_map_of_mem (List.mem_filter.1 hx).1
            obtain ⟨x, hx, rfl⟩ := List.mem_map.1 this
            exact ⟨x.2, createResolvents_obj _ _ _ _ (h2 x hx)⟩)
        rw [e']
        refine ⟨_, true, rfl, ?_⟩
        intro hve w hw
        simp only [upd_apply]
        split
        · intro hnil
          simp only [List.append_eq_nil_iff, List.map_eq_nil_iff] at hnil
          exact hne ⟨by rw [hnil.2]; rfl, by rw [hnil.1.2]; rfl⟩
        · rename_i hwv
          rcases List.mem_append.1 hw with hw | hw
          · exact hve w hw
          · simp at hw; exact (hwv hw).elim
  · exact ⟨st, true, rfl, id⟩

theorem eliminateList_total {lim : Nat} : ∀ (vs : List Nat) (st : VES), SOk F st.s →
    VEOk F st.s.db.nVars st.ve →
    ∃ st' b, eliminateList lim vs st = some (st', b) ∧ (VENe st.ve → VENe st'.ve)
  | [], st, _, _ => ⟨st, true, rfl, id⟩
  | v :: vs, st, hs, hve => by
    obtain ⟨st1, b, e, h1⟩ := eliminateStep_total (lim := lim) (v := v) hs
    rw [eliminateList, e]
    cases b with
    | false => exact ⟨st1, false, rfl, h1⟩
    | true =>
      obtain ⟨a, -, c, -⟩ := eliminateStep_sound hs hve e
      obtain ⟨st2, b2, e2, h2⟩ := eliminateList_total (lim := lim) vs st1 a c
      exact ⟨st2, b2, e2, fun h => h2 (h1 h)⟩

theorem eliminateAll_total {active : Bool} {lim : Nat} {order : (Nat → Nat) → List Nat → List Nat}
    {st : VES} (hs : SOk F st.s) (hve : VEOk F st.s.db.nVars st.ve) :
    ∃ st' b, eliminateAll active lim order st = some (st', b) ∧ (VENe st.ve → VENe st'.ve) := by
  rw [eliminateAll]
  dsimp only
  split
  · exact eliminateList_total _ { st with ve := st.ve.freeze st.T } hs ⟨hve.ent, hve.wf, hve.nd⟩
  · exact ⟨_, true, rfl, id⟩

theorem extendVar_total {T : Trail} {v : Nat} {cs : List Clause} (h : cs ≠ []) :
    ∃ T', extendVar T v cs = some T' := by
  have hd : ∃ T', extendVar.extendDefault T v cs = some T' := by
    unfold extendVar.extendDefault
    split
    · exact (h rfl).elim
    · split <;> exact ⟨_, rfl⟩
  unfold extendVar
  split
  · split
    · exact ⟨_, rfl⟩
    · exact hd
  · exact hd

theorem extendModel_total {cls : Nat → List Clause} : ∀ (vs : List Nat) (T : Trail),
    (∀ v ∈ vs, cls v ≠ []) → ∃ T', extendModel cls vs T = some T'
  | [], T, _ => ⟨T, rfl⟩
  | v :: vs, T, h => by
    obtain ⟨T1, e⟩ := extendVar_total (T := T) (h v (by simp))
    rw [extendModel, e]
    exact extendModel_total vs T1 (fun w hw => h w (by simp [hw]))

/-! ### The stages of `solve` -/

/-- The same inputs with another bound on the depth of recursion in subsumption. -/
def PreRound.withFuel (f : Nat) (r : PreRound) : PreRound := { r with fuel := f }

/-- The same inputs with another bound on the iterations of search and the depth of recursion in
subsumption. -/
def Round.withFuel (f : Nat) (r : Round) : Round :=
  { r with steps := f, inprocess := r.inprocess.map fun rs => rs.map (PreRound.withFuel f) }

theorem QInv.subsume_total {p : Proc} (r : PreRound) (h : QInv F p)
    (hne : p.sys.sol.db.hasEmpty = false) :
    ∃ N q, (∀ f, N ≤ f → p.subsume (r.withFuel f) = some q) ∧ q.sys.ve = p.sys.ve := by
  obtain ⟨s1, b, e⟩ := subsumeAll_total (before := r.before) (fuel := p.sdb.total + 1) h.ok hne (by omega)
  refine ⟨p.sdb.total + 1, (p.setSdb s1).after b r.cleanup1, ?_, ?_⟩
  · intro f hf
    simp only [Proc.subsume, PreRound.withFuel, subsumeAll_mono hf e, Option.map_some]
  · unfold Proc.after Proc.setSdb
    cases b <;> cases r.cleanup1 <;> rfl

theorem QInv.reduce_total {p : Proc} (cfg : Config) (r : PreRound) (h : QInv F p)
    (hne : p.sys.sol.db.hasEmpty = false) :
    ∃ q, (∀ f, p.reduce cfg (r.withFuel f) = some q) ∧ q.sys.ve = p.sys.ve := by
  have hl := h.inv.l0 hne
  obtain ⟨st, b, e⟩ := asymAll_total (active := cfg.useAsymm)
    (st := ⟨p.sdb, p.sys.sol.watch, p.sys.sol.trail⟩) (F := F) ⟨h.ok, hl.core, hl.watch, hl.lim⟩
  refine ⟨_, fun f => by simp only [Proc.reduce, PreRound.withFuel, e, Option.map_some]; rfl, ?_⟩
  unfold Proc.after Proc.setSdb
  cases b <;> cases r.cleanup2 <;> rfl

theorem QInv.eliminate_total {p : Proc} (cfg : Config) (r : PreRound) (h : QInv F p) :
    ∃ q, (∀ f, p.eliminate cfg (r.withFuel f) = some q) ∧ (VENe p.sys.ve → VENe q.sys.ve) := by
  obtain ⟨st, b, e, h1⟩ := eliminateAll_total (active := cfg.useElim) (lim := cfg.clauseLim)
    (order := r.order) (st := ⟨p.sdb, p.sys.ve, p.sys.sol.trail⟩) (F := F) h.ok h.inv.ve
  refine ⟨_, fun f => by simp only [Proc.eliminate, PreRound.withFuel, e, Option.map_some]; rfl, ?_⟩
  unfold Proc.after Proc.setSdb
  cases b <;> cases r.cleanup3 <;> exact h1

theorem QInv.materialize_total {p : Proc} (h : QInv F p) :
    ∃ q, p.materialize = some q ∧ q.sys.ve = p.sys.ve := by
  obtain ⟨s, h1, -⟩ := h.inv.materialize
  refine ⟨_, by rw [Proc.materialize, h1]; rfl, ?_⟩
  rfl

theorem QInv.round_total {p : Proc} (cfg : Config) (r : PreRound) (h : QInv F p) :
    ∃ N q, (∀ f, N ≤ f → p.round cfg (r.withFuel f) = some q) ∧ (VENe p.sys.ve → VENe q.1.sys.ve) := by
  obtain ⟨p1, e1, v1⟩ := h.materialize_total
  obtain ⟨q1, -⟩ := h.materialize e1
  unfold Proc.round
  simp only [e1]
  cases hE1 : p1.sys.sol.db.hasEmpty with
  | true => exact ⟨0, (p1, false), fun f _ => by simp, by rw [v1]; exact id⟩
  | false =>
    obtain ⟨N, p2, e2, v2⟩ := q1.subsume_total r hE1
    obtain ⟨q2, -⟩ := q1.subsume (e2 N (Nat.le_refl N))
    obtain ⟨p3, e3, v3⟩ := q2.materialize_total
    obtain ⟨q3, -⟩ := q2.materialize e3
    have key : ∃ q, (∀ f, N ≤ f → (if p3.sys.sol.db.hasEmpty then some (p3, false)
          else
            match (p3.reduce cfg (r.withFuel f)).bind Proc.materialize with
            | none => none
            | some p =>
              if p.sys.sol.db.hasEmpty then some (p, false)
              else (p.eliminate cfg (r.withFuel f)).map fun p => (p, true)) = some q) ∧
        (VENe p3.sys.ve → VENe q.1.sys.ve) := by
      cases hE3 : p3.sys.sol.db.hasEmpty with
      | true => exact ⟨(p3, false), fun f _ => by simp, id⟩
      | false =>
        obtain ⟨p4, e4, v4⟩ := q3.reduce_total cfg r hE3
        obtain ⟨q4, -⟩ := q3.reduce hE3 (e4 0)
        obtain ⟨p5, e5, v5⟩ := q4.materialize_total
        obtain ⟨q5, -⟩ := q4.materialize e5
        cases hE5 : p5.sys.sol.db.hasEmpty with
        | true =>
          refine ⟨(p5, false), fun f _ => ?_, by simp only; rw [v5, v4]; exact id⟩
          simp [e4 f, e5, hE5]
        | false =>
          obtain ⟨p6, e6, v6⟩ := q5.eliminate_total cfg r
          refine ⟨(p6, true), fun f _ => ?_, by simp only; rw [← v4, ← v5]; exact v6⟩
          simp [e4 f, e5, hE5, e6 f]
    obtain ⟨q, k1, k2⟩ := key
    refine ⟨N, q, fun f hf => ?_, by rw [← v1, ← v2, ← v3]; exact k2⟩
    simp only [e2 f hf, Option.bind_some, e3]
    exact k1 f hf

theorem QInv.rounds_total (cfg : Config) : ∀ (rs : List PreRound) (p : Proc), QInv F p →
    ∃ N q, (∀ f, N ≤ f → Proc.rounds cfg (rs.map (PreRound.withFuel f)) p = some q) ∧
      (VENe p.sys.ve → VENe q.sys.ve)
  | [], p, _ => ⟨0, p, fun _ _ => rfl, id⟩
  | r :: rs, p, h => by
    obtain ⟨N, ⟨p1, b⟩, e, v⟩ := h.round_total cfg r
    obtain ⟨h1, -⟩ := h.round (e N (Nat.le_refl N))
    cases b with
    | false =>
      refine ⟨N, p1, fun f hf => ?_, v⟩
      rw [List.map_cons, Proc.rounds, e f hf]
    | true =>
      obtain ⟨N2, q, e2, v2⟩ := QInv.rounds_total cfg rs p1 h1
      refine ⟨max N N2, q, fun f hf => ?_, fun hh => v2 (v hh)⟩
      rw [List.map_cons, Proc.rounds, e f (by omega)]
      exact e2 f (by omega)

theorem PInv.process_total {sys : Sys} (cfg : Config) (rs : List PreRound) (h : PInv F sys) :
    ∃ N sys', (∀ f, N ≤ f → Candy.process cfg (rs.map (PreRound.withFuel f)) sys = some sys') ∧
      (VENe sys.ve → VENe sys'.ve) := by
  have hok : SOk F (SDB.init sys.sol.db) := SOk.init h.db
  have hq : QInv F ⟨sys, (SDB.init sys.sol.db).obj, (SDB.init sys.sol.db).occ⟩ := by
    refine ⟨h, ?_⟩
    have e : (SDB.init sys.sol.db) = ⟨sys.sol.db, (SDB.init sys.sol.db).obj,
      (SDB.init sys.sol.db).occ⟩ := by
      conv => lhs; rw [show SDB.init sys.sol.db = ⟨(SDB.init sys.sol.db).db,
        (SDB.init sys.sol.db).obj, (SDB.init sys.sol.db).occ⟩ from rfl, init_db]
    rw [e] at hok; exact hok
  obtain ⟨N, q, e, v⟩ := QInv.rounds_total cfg rs _ hq
  exact ⟨N, q.sys, fun f hf => by unfold Candy.process; simp only [e f hf, Option.map_some], v⟩

theorem PInv.reduceStep_total {sys : Sys} (cfg : Config) (r : Round) (h : PInv F sys) :
    ∃ N sys', (∀ f, N ≤ f → Candy.reduceStep cfg (r.withFuel f) sys = some sys') ∧
      (VENe sys.ve → VENe sys'.ve) := by
  unfold Candy.reduceStep Round.withFuel
  dsimp only
  cases r.trigger with
  | false => exact ⟨0, sys, fun _ _ => by simp, id⟩
  | true =>
    cases r.inprocess with
    | none =>
      refine ⟨0, _, fun _ _ => by simp only [if_true, Option.map_none, Option.map_some]; rfl, ?_⟩
      exact id
    | some rs =>
      obtain ⟨N, sys1, e, v⟩ := h.process_total cfg rs
      refine ⟨N, _, fun f hf => by simp only [if_true, Option.map_some, e f hf]; rfl, ?_⟩
      exact v

theorem search_mono : ∀ (f f' : Nat) (o : Nat → Choice) (s : Solver) (x : Solver × Option Bool),
    f ≤ f' → search f o s = some x → search f' o s = some x
  | 0, _, _, _, _, _, h => by simp [search] at h
  | f + 1, 0, _, _, _, hf, _ => by omega
  | f + 1, f' + 1, o, s, x, hf, h => by
    rw [search] at h ⊢
    split at h
    · simp at h
    · exact h
    · exact search_mono f f' _ _ x (by omega) h

theorem RoundInv.round_total {sys : Sys} (cfg : Config) {r : Round} (hr : r.Valid) (h : RoundInv F sys)
    (hb : ∀ l ∈ sys.sol.trail.assumptions, l.var < sys.sol.db.nVars) :
    ∃ N x, (∀ f, N ≤ f → solveRound cfg (r.withFuel f) sys = some x) ∧ (VENe sys.ve → VENe x.1.ve) ∧
      ((∀ i, (r.choice i).restart = false) → x.2 ≠ none) := by
  obtain ⟨N, sys1, e, v⟩ := h.reset.reduceStep_total cfg r
  obtain ⟨a1, a2⟩ := h.reset.reduceStep (r := r.withFuel N) hr.sort (e N (Nat.le_refl N))
  obtain ⟨s, m1, m2, m3, -⟩ := a1.materialize
  have hf := a2.trans m3
  have hnv : s.db.nVars = sys.sol.db.nVars := hf.nVars
  have has : s.trail.assumptions = sys.sol.trail.assumptions := hf.assumptions
  cases hE : s.db.hasEmpty with
  | true =>
    refine ⟨N, ({ sys1 with sol := s }, some false), fun f hf => ?_, v, by simp⟩
    unfold solveRound
    simp only [e f hf, m1, hE, if_true]
  | false =>
    have hS : SInv F (fun _ => False) s := m2.sinv hE (by
      intro l hl
      simp only at hl ⊢
      rw [has] at hl; rw [hnv]; exact hb l hl)
    obtain ⟨s', b, e2, e3⟩ := search_terminates (s.db.nVars * (s.db.nVars + 1) ^ (s.db.nVars + 1) + 1)
      r.choice s _ hS hr.choice (by omega)
    refine ⟨max N (s.db.nVars * (s.db.nVars + 1) ^ (s.db.nVars + 1) + 1),
      ({ sys1 with sol := s' }, b), fun f hf => ?_, v, e3⟩
    unfold solveRound
    simp only [e f (by omega), m1, hE]
    have := search_mono _ f r.choice s _ (by omega) e2
    simp only [Round.withFuel, this, Option.map_some, Bool.false_eq_true, if_false]

theorem RoundInv.loop_total (cfg : Config) : ∀ (rs : List Round) (sys : Sys), RoundInv F sys →
    (∀ r ∈ rs, r.Valid) → (∀ l ∈ sys.sol.trail.assumptions, l.var < sys.sol.db.nVars) →
    sys.sol.conflict = [] →
    ∃ N x, (∀ f, N ≤ f → solveLoop cfg (rs.map (Round.withFuel f)) sys = some x) ∧
      (VENe sys.ve → VENe x.1.ve) ∧
      ((∃ r ∈ rs, ∀ i, (r.choice i).restart = false) → x.2 ≠ none)
  | [], sys, _, _, _, _ => ⟨0, (sys, none), fun _ _ => rfl, id, by simp⟩
  | r :: rs, sys, h, hr, hb, hcf => by
    obtain ⟨N, ⟨sys1, b⟩, e, v, w⟩ := h.round_total cfg (hr r (by simp)) hb
    have hrv : (r.withFuel N).Valid := ⟨(hr r (by simp)).choice, (hr r (by simp)).sort⟩
    obtain ⟨a1, a2, a3, a4, a5, a6, _⟩ := solveRound_spec h hrv hb hcf (e N (Nat.le_refl N))
    cases b with
    | some b =>
      refine ⟨N, (sys1, some b), fun f hf => ?_, v, by simp⟩
      rw [List.map_cons, solveLoop, e f hf]
    | none =>
      obtain ⟨a6, a7⟩ := a6 (by simp)
      obtain ⟨N2, x, e2, v2, w2⟩ := RoundInv.loop_total cfg rs sys1 ⟨a1, a2, a3, a7⟩
        (fun q hq => hr q (by simp [hq])) (by rw [a5, a4]; exact hb) a6
      refine ⟨max N N2, x, fun f hf => ?_, fun hh => v2 (v hh), ?_⟩
      · rw [List.map_cons, solveLoop, e f (by omega)]
        exact e2 f (by omega)
      · rintro ⟨q, hq, hqr⟩
        rcases List.mem_cons.1 hq with rfl | hq
        · exact (w hqr rfl).elim
        · exact w2 ⟨q, hq, hqr⟩

theorem VENe.undo {ve : VE} (h : VENe ve) (T : Trail) (v : Nat) : VENe (ve.undo T v).2.1 := by
  intro w hw
  simp only [VE.undo, List.mem_filter, bne_iff_ne, ne_eq] at hw
  simp only [VE.undo, upd_apply]
  rw [if_neg hw.2]
  exact h w hw.1

theorem VENe.resetLoop : ∀ (ls : List Lit) (ve : VE) (T : Trail) (acc : List Clause), VENe ve →
    VENe (VE.resetLoop ls ve T acc).2.1
  | [], ve, T, acc, h => h
  | l :: ls, ve, T, acc, h => by
    rw [VE.resetLoop]
    dsimp only
    have h' : VENe { ve with frozen := upd ve.frozen l.var true } := h
    split
    · exact VENe.resetLoop ls _ _ _ (h'.undo T l.var)
    · exact VENe.resetLoop ls _ _ _ h'

theorem VENe.solveStart {sys : Sys} (h : VENe sys.ve) : VENe (solveStart sys).ve :=
  VENe.resetLoop _ _ _ _ h

theorem solve_total {sys : Sys} (h : SysOk F sys) (hve : VENe sys.ve) (cfg : Config)
    (pre : List PreRound) (rounds : List Round) (hr : ∀ r ∈ rounds, r.Valid)
    (hb : ∀ l ∈ sys.sol.trail.assumptions, l.var < sys.sol.db.nVars) :
    ∃ N x, (∀ f, N ≤ f → solve cfg (pre.map (PreRound.withFuel f)) (rounds.map (Round.withFuel f)) sys =
        some x) ∧ VENe x.1.ve ∧
      ((∃ r ∈ rounds, ∀ i, (r.choice i).restart = false) → x.2.status ≠ none) := by
  obtain ⟨p1, p2, p3, p4, p5⟩ := solveStart_spec h
  have hv0 := hve.solveStart
  have key : ∃ N sys1, (∀ f, N ≤ f → solveEntry cfg (pre.map (PreRound.withFuel f)) sys = some sys1) ∧
      VENe sys1.ve := by
    unfold solveEntry
    dsimp only
    cases cfg.preprocessing with
    | false => exact ⟨0, _, fun _ _ => rfl, hv0⟩
    | true =>
      obtain ⟨N, sys1, e, v⟩ := p1.process_total cfg pre
      refine ⟨N, _, fun f hf => by simp only [if_true, e f hf, Option.map_some]; rfl, ?_⟩
      exact v hv0
  obtain ⟨N, sys1, e, v⟩ := key
  obtain ⟨k1, k2, k3, k4⟩ := solveEntry_spec h (e N (Nat.le_refl N))
  have key2 : ∃ M x, (∀ f, M ≤ f → (if sys1.sol.db.hasEmpty then some (sys1, some false)
      else solveLoop cfg (rounds.map (Round.withFuel f)) sys1) = some x) ∧ VENe x.1.ve ∧
      ((∃ r ∈ rounds, ∀ i, (r.choice i).restart = false) → x.2 ≠ none) := by
    cases hE : sys1.sol.db.hasEmpty with
    | true => exact ⟨0, (sys1, some false), fun _ _ => by simp, v, by simp⟩
    | false =>
      obtain ⟨M, x, e2, v2, w2⟩ := k1.loop_total cfg rounds sys1 hr (by rw [k3, k2]; exact hb) k4
      exact ⟨M, x, fun f hf => by simpa using e2 f hf, v2 v, w2⟩
  obtain ⟨M, ⟨sys2, st⟩, e2, v2, w2⟩ := key2
  have key3 : ∃ y, solveEnd sys2 st = some y ∧ VENe y.1.ve ∧ y.2.status = st := by
    unfold solveEnd
    split
    · exact ⟨_, rfl, v2, rfl⟩
    · exact ⟨_, rfl, v2, rfl⟩
    · obtain ⟨T, eT⟩ := extendModel_total sys2.ve.vars.reverse sys2.sol.trail (cls := sys2.ve.cls)
        (fun w hw => v2 w (by simpa using hw))
      rw [eT]
      exact ⟨_, rfl, v2, rfl⟩
  obtain ⟨y, e3, v3, w3⟩ := key3
  refine ⟨max N M, y, fun f hf => ?_, v3, fun hh => by rw [w3]; exact w2 hh⟩
  rw [solve_eq, e f (by omega)]
  simp only [Option.bind_some]
  rw [e2 f (by omega)]
  exact e3

/-! ### Stored clauses exist in every history -/

theorem PreRound.withFuel_self (r : PreRound) : r.withFuel r.fuel = r := rfl

theorem Proc.after_ve (p : Proc) (ok clean : Bool) : (p.after ok clean).sys.ve = p.sys.ve := by
  unfold Proc.after Proc.setSdb
  cases ok <;> cases clean <;> rfl

theorem Proc.materialize_ve {p q : Proc} (h : p.materialize = some q) : q.sys.ve = p.sys.ve := by
  obtain ⟨s, -, rfl⟩ := Option.map_eq_some_iff.1 h
  rfl

theorem Proc.subsume_ve {p q : Proc} {r : PreRound} (h : p.subsume r = some q) :
    q.sys.ve = p.sys.ve := by
  obtain ⟨x, -, rfl⟩ := Option.map_eq_some_iff.1 h
  rw [Proc.after_ve]; rfl

theorem Proc.reduce_ve {p q : Proc} {cfg : Config} {r : PreRound} (h : p.reduce cfg r = some q) :
    q.sys.ve = p.sys.ve := by
  obtain ⟨x, -, rfl⟩ := Option.map_eq_some_iff.1 h
  rw [Proc.after_ve]

theorem QInv.round_ve {p p' : Proc} {cfg : Config} {r : PreRound} {b : Bool} (h : QInv F p)
    (he : p.round cfg r = some (p', b)) (hv : VENe p.sys.ve) : VENe p'.sys.ve := by
  unfold Proc.round at he
  split at he
  · simp at he
  · rename_i p1 hp1
    obtain ⟨a1, -⟩ := h.materialize hp1
    have v1 := Proc.materialize_ve hp1
    split at he
    · simp at he; obtain ⟨rfl, rfl⟩ := he; rw [v1]; exact hv
    · split at he
      · simp at he
      · rename_i p3 hp3
        obtain ⟨p2, hp2, hp3⟩ := Option.bind_eq_some_iff.1 hp3
        obtain ⟨b1, -⟩ := a1.subsume hp2
        obtain ⟨c1, -⟩ := b1.materialize hp3
        have v3 := ((Proc.materialize_ve hp3).trans (Proc.subsume_ve hp2)).trans v1
        split at he
        · simp at he; obtain ⟨rfl, rfl⟩ := he; rw [v3]; exact hv
        · rename_i hne3
          split at he
          · simp at he
          · rename_i p5 hp5
            obtain ⟨p4, hp4, hp5⟩ := Option.bind_eq_some_iff.1 hp5
            obtain ⟨d1, -⟩ := c1.reduce (by simpa using hne3) hp4
            obtain ⟨e1, -⟩ := d1.materialize hp5
            have v5 := ((Proc.materialize_ve hp5).trans (Proc.reduce_ve hp4)).trans v3
            split at he
            · simp at he; obtain ⟨rfl, rfl⟩ := he; rw [v5]; exact hv
            · obtain ⟨p6, hp6, hb⟩ := Option.map_eq_some_iff.1 he
              simp at hb; obtain ⟨rfl, rfl⟩ := hb
              obtain ⟨q, k1, k2⟩ := e1.eliminate_total cfg r
              have := k1 r.fuel
              rw [r.withFuel_self, hp6] at this
              simp at this; subst this
              exact k2 (by rw [v5]; exact hv)

theorem QInv.rounds_ve {cfg : Config} : ∀ (rs : List PreRound) (p : Proc), QInv F p → ∀ p',
    Proc.rounds cfg rs p = some p' → VENe p.sys.ve → VENe p'.sys.ve
  | [], p, h, p', he, hv => by simp [Proc.rounds] at he; subst he; exact hv
  | r :: rs, p, h, p', he, hv => by
    rw [Proc.rounds] at he
    split at he
    · simp at he
    · rename_i p1 hp1
      simp at he; subst he
      exact h.round_ve hp1 hv
    · rename_i p1 hp1
      exact QInv.rounds_ve rs p1 (h.round hp1).1 p' he (h.round_ve hp1 hv)

theorem PInv.process_ve {cfg : Config} {rs : List PreRound} {sys sys' : Sys} (h : PInv F sys)
    (he : Candy.process cfg rs sys = some sys') (hv : VENe sys.ve) : VENe sys'.ve := by
  unfold Candy.process at he
  obtain ⟨p, hp, rfl⟩ := Option.map_eq_some_iff.1 he
  have hok : SOk F (SDB.init sys.sol.db) := SOk.init h.db
  have hq : QInv F ⟨sys, (SDB.init sys.sol.db).obj, (SDB.init sys.sol.db).occ⟩ := by
    refine ⟨h, ?_⟩
    have e : (SDB.init sys.sol.db) = ⟨sys.sol.db, (SDB.init sys.sol.db).obj,
      (SDB.init sys.sol.db).occ⟩ := by
      conv => lhs; rw [show SDB.init sys.sol.db = ⟨(SDB.init sys.sol.db).db,
        (SDB.init sys.sol.db).obj, (SDB.init sys.sol.db).occ⟩ from rfl, init_db]
    rw [e] at hok; exact hok
  exact QInv.rounds_ve rs _ hq p hp hv

theorem solveRound_ve {cfg : Config} {r : Round} {sys sys' : Sys} {b : Option Bool}
    (h : RoundInv F sys) (he : solveRound cfg r sys = some (sys', b)) (hv : VENe sys.ve) :
    VENe sys'.ve := by
  unfold solveRound at he
  dsimp only at he
  split at he
  · simp at he
  · rename_i sys1 h1
    have v1 : VENe sys1.ve := by
      unfold reduceStep at h1
      split at h1
      · dsimp only at h1
        obtain ⟨sys2, h2, rfl⟩ := Option.map_eq_some_iff.1 h1
        split at h2
        · have := h.reset.process_ve h2 hv
          exact this
        · simp at h2; subst h2; exact hv
      · simp at h1; subst h1; exact hv
    split at he
    · simp at he
    · split at he
      · simp at he; obtain ⟨rfl, rfl⟩ := he; exact v1
      · obtain ⟨x, -, hx⟩ := Option.map_eq_some_iff.1 he
        simp at hx; obtain ⟨rfl, rfl⟩ := hx; exact v1

theorem solveLoop_ve {cfg : Config} : ∀ (rs : List Round) (sys : Sys), RoundInv F sys →
    (∀ r ∈ rs, r.Valid) → (∀ l ∈ sys.sol.trail.assumptions, l.var < sys.sol.db.nVars) →
    sys.sol.conflict = [] → VENe sys.ve → ∀ sys' b, solveLoop cfg rs sys = some (sys', b) → VENe sys'.ve
  | [], sys, _, _, _, _, hv, sys', b, he => by
    simp [solveLoop] at he; obtain ⟨rfl, rfl⟩ := he; exact hv
  | r :: rs, sys, h, hr, hb, hcf, hv, sys', b, he => by
    rw [solveLoop] at he
    split at he
    · simp at he
    · rename_i sys1 h1
      obtain ⟨a1, a2, a3, a4, a5, a6, _⟩ := solveRound_spec h (hr r (by simp)) hb hcf h1
      obtain ⟨a6, a7⟩ := a6 (by simp)
      exact solveLoop_ve rs sys1 ⟨a1, a2, a3, a7⟩ (fun q hq => hr q (by simp [hq]))
        (by rw [a5, a4]; exact hb) a6 (solveRound_ve h h1 hv) sys' b he
    · rename_i sys1 b1 h1
      simp only [Option.some.injEq, Prod.mk.injEq] at he
      obtain ⟨rfl, rfl⟩ := he
      exact solveRound_ve h h1 hv

theorem solve_ve {cfg : Config} {pre : List PreRound} {rounds : List Round} {sys sys' : Sys}
    {res : Result} (h : SysOk F sys) (hr : ∀ r ∈ rounds, r.Valid)
    (hb : ∀ l ∈ sys.sol.trail.assumptions, l.var < sys.sol.db.nVars) (hv : VENe sys.ve)
    (he : solve cfg pre rounds sys = some (sys', res)) : VENe sys'.ve := by
  rw [solve_eq] at he
  obtain ⟨sys1, h1, he⟩ := Option.bind_eq_some_iff.1 he
  obtain ⟨⟨sys2, st⟩, h2, he⟩ := Option.bind_eq_some_iff.1 he
  obtain ⟨k1, k2, k3, k4⟩ := solveEntry_spec h h1
  have v1 : VENe sys1.ve := by
    unfold solveEntry at h1
    dsimp only at h1
    split at h1
    · obtain ⟨x, hx, rfl⟩ := Option.map_eq_some_iff.1 h1
      have := (solveStart_spec h).1.process_ve hx hv.solveStart
      exact this
    · simp at h1; subst h1; exact hv.solveStart
  have v2 : VENe sys2.ve := by
    split at h2
    · simp at h2; obtain ⟨rfl, rfl⟩ := h2; exact v1
    · exact solveLoop_ve rounds sys1 k1 hr (by rw [k3, k2]; exact hb) k4 v1 sys2 st h2
  unfold solveEnd at he
  dsimp only at he
  split at he
  · simp at he; obtain ⟨rfl, rfl⟩ := he; exact v2
  · simp at he; obtain ⟨rfl, rfl⟩ := he; exact v2
  · split at he
    · simp at he
    · simp at he; obtain ⟨rfl, rfl⟩ := he; exact v2

theorem VENe.restoreLits : ∀ (ls : List Lit) (sys : Sys), VENe sys.ve → VENe (restoreLits ls sys).ve
  | [], sys, h => h
  | l :: ls, sys, h => by
    rw [Candy.restoreLits]
    split
    · exact VENe.restoreLits ls _ (h.undo sys.sol.trail _)
    · exact VENe.restoreLits ls _ h

theorem VENe.restoreAll : ∀ (cs : CNF) (sys : Sys), VENe sys.ve → VENe (restoreAll cs sys).ve
  | [], sys, h => h
  | c :: cs, sys, h => by
    rw [Candy.restoreAll]
    split
    · exact h
    · exact VENe.restoreAll cs _ (VENe.restoreLits c sys h)

theorem History.ve {u : Usage} {as : List Lit} {sys : Sys} (hu : u.Valid) (h : History u F as sys) :
    VENe sys.ve := by
  induction h with
  | new recalc => intro v hv; simp [Sys.new, VE.empty] at hv
  | add h nv G flag hf hG ih => exact VENe.restoreAll G _ ih
  | assume h as' hb ih => exact ih
  | solve h cfg pre rounds hc hr he ih =>
    have ok := h.ok hu
    exact solve_ve ok.ok (fun r hm => hu r (hr r hm)) (by rw [ok.assumptions]; exact ok.bound) ih he

end Candy
