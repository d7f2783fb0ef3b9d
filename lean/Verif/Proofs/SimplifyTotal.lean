import Verif.Proofs.Solve
import Verif.Model.ProcessLoop

/-!
# Simplification is defined: no null or dangling pointer, and subsumption terminates
-/

namespace Candy

variable {F : CNF} {s s' : SDB}

/-! ### The number of literals of the live objects -/

/-- Objects refer to non-empty clauses. -/
def NE (s : SDB) : Prop := ∀ i c : Nat, s.obj[i]? = some (some c) → s.db.lits c ≠ []

theorem sum_map_set {α : Type} (f : α → Nat) : ∀ (xs : List α) (i : Nat) (x y : α), xs[i]? = some x →
    ((xs.set i y).map f).sum + f x = (xs.map f).sum + f y
  | [], i, x, y, h => by simp at h
  | z :: zs, 0, x, y, h => by
    simp at h; subst h
    simp only [List.set_cons_zero, List.map_cons, List.sum_cons]; omega
  | z :: zs, i + 1, x, y, h => by
    have := sum_map_set f zs i x y (by simpa using h)
    simp only [List.set_cons_succ, List.map_cons, List.sum_cons]; omega

theorem SOk.ne (h : SOk F s) (he : s.db.hasEmpty = false) : NE s := by
  intro i c hi hl
  have := h.db.emptAll c (h.obj i c hi) hl
  rw [he] at this; simp at this

theorem objLen_congr {db db' : DB} {o : List (Option Nat)}
    (h : ∀ (i c : Nat), o[i]? = some (some c) → (db'.lits c).length = (db.lits c).length) :
    o.map (objLen db') = o.map (objLen db) := by
  refine List.map_congr_left ?_
  intro x hx
  cases x with
  | none => rfl
  | some c =>
    obtain ⟨i, hi⟩ := List.getElem?_of_mem hx
    exact h i c hi

/-- `remove` on a live object. -/
theorem remove_total {i c : Nat} (hi : s.obj[i]? = some (some c)) :
    ∃ s', s.remove i = some s' ∧ s'.total + (s.db.lits c).length = s.total ∧ (NE s → NE s') ∧
      s'.obj.length = s.obj.length ∧ (∀ j, j ≠ i → s'.obj[j]? = s.obj[j]?) ∧
      s'.obj[i]? = some none ∧ (∀ d, s'.db.lits d = s.db.lits d) ∧
      (∀ d, d ≠ c → (s'.db.store d).weight = (s.db.store d).weight) := by
  refine ⟨{ s with db := s.db.removeClause c, obj := s.obj.set i none }, ?_, ?_, ?_, ?_, ?_, ?_, ?_, ?_⟩
  · simp [SDB.remove, hi]
  · unfold SDB.total
    have := sum_map_set (objLen s.db) s.obj i (some c) none hi
    simp only [objLen] at this ⊢
    rw [objLen_congr (db := s.db) (by simp)]
    exact this
  · intro hn j d hj
    rcases set_obj hj with ⟨_, h2⟩ | ⟨_, h2⟩
    · simp at h2
    · simpa using hn j d h2
  · simp
  · intro j hj
    simp only [List.getElem?_set]
    rw [if_neg (fun e => hj e.symm)]
  · have := (List.getElem?_eq_some_iff.1 hi).1
    simp [this]
  · intro d; simp
  · intro d hd
    simp only [removeClause_store]
    rw [upd_ne _ _ hd]

theorem filter_ne_nil {ls : List Lit} {l : Lit} (hn : (ls.map Lit.var).Nodup) (hl : 1 < ls.length) :
    ls.filter (fun x => x != l) ≠ [] := by
  match ls, hl with
  | x :: y :: r, _ =>
    intro e
    rw [List.filter_eq_nil_iff] at e
    have h1 := e x (by simp)
    have h2 := e y (by simp)
    simp at h1 h2
    subst h1; subst h2
    simp at hn

theorem strengthen_total {i c : Nat} {l : Lit} (hs : SOk F s) (hi : s.obj[i]? = some (some c)) :
    ∃ s', s.strengthen i l = some s' ∧ s'.total ≤ s.total ∧ (l ∈ s.db.lits c → s'.total < s.total) ∧
      (1 < (s.db.lits c).length → NE s → NE s') ∧
      s'.obj.length = s.obj.length ∧ (∀ j, j ≠ i → s'.obj[j]? = s.obj[j]?) ∧
      s'.obj[i]? = some (some s.db.next) := by
  refine ⟨{ db := (s.db.strengthenClause c l).1, obj := s.obj.set i (some s.db.next),
             occ := upd s.occ l.var ((s.occ l.var).filter (fun j => j != i)) }, ?_, ?_⟩
  · simp [SDB.strengthen, hi, strengthenClause_eq]
  have htot : SDB.total (SDB.mk (s.db.strengthenClause c l).1 (s.obj.set i (some s.db.next))
             (upd s.occ l.var ((s.occ l.var).filter (fun j => j != i)))) +
             (s.db.lits c).length = s.total + ((s.db.lits c).filter (fun x => x != l)).length := by
    unfold SDB.total
    have h0 := sum_map_set (objLen (s.db.strengthenClause c l).1) s.obj i (some c) (some s.db.next) hi
    have h1 : objLen (s.db.strengthenClause c l).1 (some s.db.next) =
        ((s.db.lits c).filter (fun x => x != l)).length := by
      simp [objLen, strengthenClause_lits]
    have h2 : objLen (s.db.strengthenClause c l).1 (some c) = (s.db.lits c).length := by
      have := hs.lt hi
      simp only [objLen, strengthenClause_lits]
      rw [if_neg (by omega)]
    have h3 : s.obj.map (objLen (s.db.strengthenClause c l).1) = s.obj.map (objLen s.db) := by
      refine objLen_congr ?_
      intro j d hj
      have := hs.lt hj
      rw [strengthenClause_lits, if_neg (by omega)]
    rw [h1, h2, h3] at h0
    exact h0
  have hle : ((s.db.lits c).filter (fun x => x != l)).length ≤ (s.db.lits c).length :=
    List.length_filter_le _ _
  refine ⟨by omega, ?_, ?_, ?_, ?_, ?_⟩
  · intro hl
    have : ((s.db.lits c).filter (fun x => x != l)).length < (s.db.lits c).length := by
      refine Nat.lt_of_le_of_ne hle ?_
      intro e
      rw [List.length_filter_eq_length_iff] at e
      simpa using e l hl
    omega
  · intro hlen hn j d hj
    rcases set_obj hj with ⟨_, h2⟩ | ⟨_, h2⟩
    · simp at h2; subst h2
      simp only [strengthenClause_lits, if_true]
      exact filter_ne_nil (hs.db.nd c (hs.lt hi)) hlen
    · have := hs.lt h2
      simp only [strengthenClause_lits]
      rw [if_neg (by omega)]
      exact hn j d h2
  · simp
  · intro j hj
    simp only [List.getElem?_set]
    rw [if_neg (fun e => hj e.symm)]
  · have := (List.getElem?_eq_some_iff.1 hi).1
    simp [this]

theorem create_total (hs : SOk F s) (ls : List Lit) (lbd : Nat) :
    (s.create ls lbd).total = s.total + ls.length ∧ (ls ≠ [] → NE s → NE (s.create ls lbd)) := by
  constructor
  · unfold SDB.total
    rw [create_obj, List.map_append, List.sum_append, create_db]
    congr 1
    · congr 1
      refine objLen_congr ?_
      intro j d hj
      have := hs.lt hj
      rw [createClause_lits, if_neg (by omega)]
    · simp [objLen, createClause_lits]
  · intro hl hn j d hj
    rw [create_obj] at hj
    rw [create_db, createClause_lits]
    by_cases hlt : j < s.obj.length
    · rw [List.getElem?_append_left hlt] at hj
      have := hs.lt hj
      rw [if_neg (by omega)]
      exact hn j d hj
    · rw [List.getElem?_append_right (by omega)] at hj
      have := List.mem_of_getElem? hj
      simp at this; subst this
      rw [if_pos rfl]; exact hl

/-! ### Subsumption -/

theorem subsumeScan_total {before : Nat → Nat → Bool} {start : Nat} :
    ∀ (os : List Nat) (s : SDB) (cur : Nat), SOk F s → NE s → (∀ o ∈ os, o < s.obj.length) →
      (∃ c, s.obj[cur]? = some (some c) ∧ (cur = start ∨
        ((s.db.store c).weight = 0 ∧ ∀ i : Nat, s.obj[i]? = some (some c) → i = cur))) →
      ∃ s' out, subsumeScan before start os s cur = some (s', out) ∧ NE s' ∧
        s.obj.length ≤ s'.obj.length ∧ s'.total ≤ s.total ∧
        ∀ j, out = .again j → s'.total < s.total ∧ ∃ c, s'.obj[j]? = some (some c)
  | [], s, cur, _, hn, _, _ => by
    exact ⟨s, .done, rfl, hn, Nat.le_refl _, Nat.le_refl _, by simp⟩
  | o :: os, s, cur, hs, hn, hlt, ⟨cc, hcc, hst⟩ => by
    have hlt' : ∀ x ∈ os, x < s.obj.length := fun x hx => hlt x (by simp [hx])
    rw [subsumeScan]
    have ho := List.getElem?_eq_getElem (hlt o (by simp))
    cases hob : s.obj[o]? with
    | none => rw [hob] at ho; simp at ho
    | some oo =>
    cases oo with
    | none => exact subsumeScan_total os s cur hs hn hlt' ⟨cc, hcc, hst⟩
    | some oc =>
    simp only
    by_cases hoc : o = cur
    · rw [if_pos hoc]
      exact subsumeScan_total os s cur hs hn hlt' ⟨cc, hcc, hst⟩
    rw [if_neg hoc, hcc]
    simp only
    -- plain removal of `o`
    have plain : ∃ s' out, (match s.remove o with
          | none => none
          | some s => subsumeScan before start os s cur) = some (s', out) ∧ NE s' ∧
        s.obj.length ≤ s'.obj.length ∧ s'.total ≤ s.total ∧
        ∀ j, out = .again j → s'.total < s.total ∧ ∃ c, s'.obj[j]? = some (some c) := by
      obtain ⟨s1, e1, e2, e3, e4, e5, e6, e7, e8⟩ := remove_total hob
      rw [e1]
      have hcc1 : s1.obj[cur]? = some (some cc) := by rw [e5 cur (fun e => hoc e.symm)]; exact hcc
      obtain ⟨s2, out, f1, f2, f3, f4, f5⟩ := subsumeScan_total (before := before) (start := start) os s1 cur
        (hs.remove e1).1 (e3 hn)
        (by rw [e4]; exact hlt') ⟨cc, hcc1, hst.imp id (by
          rintro ⟨h1, h2⟩
          refine ⟨?_, ?_⟩
          · rw [e8 cc (fun e => hoc (h2 o (by rw [hob, e])))]; exact h1
          · intro i hi
            by_cases hio : i = o
            · subst hio; rw [e6] at hi; simp at hi
            · rw [e5 i hio] at hi; exact h2 i hi)⟩
      exact ⟨s2, out, f1, f2, by omega, by omega, fun j hj => ⟨by have := (f5 j hj).1; omega, (f5 j hj).2⟩⟩
    cases hsub : subsumes (s.db.lits cc) (s.db.lits oc) with
    | none => exact subsumeScan_total os s cur hs hn hlt' ⟨cc, hcc, hst⟩
    | some r =>
    cases r with
    | none =>
      simp only
      split
      · exact plain
      · split
        · rename_i hp
          -- the clause becomes persistent
          have hcs : cur = start := by
            rcases hst with h | ⟨h, _⟩
            · exact h
            · simp [Cls.isLearnt, h] at hp
          subst hcs
          have hclt := hs.lt hcc
          have hok1 : SOk F (s.create (s.db.lits cc)) :=
            hs.create (hs.db.wf _ hclt) (hs.db.nd _ hclt) (hs.db.ent _ hclt)
          obtain ⟨k1, k2⟩ := create_total hs (s.db.lits cc) 0
          have hol := (List.getElem?_eq_some_iff.1 hob).1
          have hcl := (List.getElem?_eq_some_iff.1 hcc).1
          have hcc1 : (s.create (s.db.lits cc)).obj[cur]? = some (some cc) := by
            rw [create_obj, List.getElem?_append_left hcl, hcc]
          have hob1 : (s.create (s.db.lits cc)).obj[o]? = some (some oc) := by
            rw [create_obj, List.getElem?_append_left hol, hob]
          have hnew1 : (s.create (s.db.lits cc)).obj[s.obj.length]? = some (some s.db.next) := by
            rw [create_obj]; simp
          have hlen1 : (s.create (s.db.lits cc)).obj.length = s.obj.length + 1 := by
            rw [create_obj]; simp
          have hlits1 : ∀ d < s.db.next, (s.create (s.db.lits cc)).db.lits d = s.db.lits d := by
            intro d hd
            rw [create_db, createClause_lits, if_neg (by omega)]
          have hw1 : ((s.create (s.db.lits cc)).db.store s.db.next).weight = 0 := by
            rw [create_db]; simp
          obtain ⟨s1, e1, e2, e3, e4, e5, e6, e7, e8⟩ := remove_total hcc1
          rw [e1]
          simp only
          have hob2 : s1.obj[o]? = some (some oc) := by rw [e5 o hoc]; exact hob1
          obtain ⟨s2, f1, f2, f3, f4, f5, f6, f7, f8⟩ := remove_total hob2
          rw [f1]
          simp only
          have holt := hs.lt hob
          have hnew2 : s2.obj[s.obj.length]? = some (some s.db.next) := by
            rw [f5 _ (by omega), e5 _ (by omega)]; exact hnew1
          obtain ⟨s3, out, g1, g2, g3, g4, g5⟩ := subsumeScan_total (before := before) (start := cur) os s2
            s.obj.length ((hok1.remove e1).1.remove f1).1 (f3 (e3 (k2 (hn _ _ hcc) hn)))
            (by intro x hx; have := hlt' x hx; omega)
            ⟨s.db.next, hnew2, Or.inr ⟨by
              rw [f8 _ (by omega), e8 _ (by omega)]; exact hw1, by
              intro i hi
              by_cases hio : i = o
              · subst hio; rw [f6] at hi; simp at hi
              · rw [f5 i hio] at hi
                by_cases hic : i = cur
                · subst hic; rw [e6] at hi; simp at hi
                · rw [e5 i hic, create_obj] at hi
                  by_cases hil : i < s.obj.length
                  · rw [List.getElem?_append_left hil] at hi
                    have := hs.lt hi; omega
                  · have := (List.getElem?_eq_some_iff.1 hi).1
                    simp at this; omega⟩⟩
          rw [hlits1 cc hclt] at e2
          exact ⟨s3, out, g1, g2, by omega, by omega,
            fun j hj => ⟨by have := (g5 j hj).1; omega, (g5 j hj).2⟩⟩
        · exact plain
    | some l =>
      simp only
      obtain ⟨h1, h2, h3, h4⟩ := subsumes_some hsub
      split
      · rename_i hlen
        obtain ⟨s1, e1, e2, e3, e4, e5, e6, e7⟩ := strengthen_total (l := l.neg) hs hob
        rw [e1]
        exact ⟨s1, .again o, rfl, e4 hlen hn, by omega, e2, by
          intro j hj
          simp at hj; subst hj
          exact ⟨e3 h2, _, e7⟩⟩
      · exact ⟨s, .unsat, rfl, hn, Nat.le_refl _, Nat.le_refl _, by simp⟩

theorem minOcc_some {occ : Nat → List Nat} {ls : List Lit} (h : ls ≠ []) : ∃ b, minOcc occ ls = some b := by
  cases ls with
  | nil => exact (h rfl).elim
  | cons l ls => exact ⟨_, rfl⟩

theorem subsumeClause_total {before : Nat → Nat → Bool} : ∀ (fuel : Nat) (s : SDB) (i c : Nat), SOk F s →
    NE s → s.total < fuel → s.obj[i]? = some (some c) →
    ∃ s' b, subsumeClause before fuel s i = some (s', b) ∧ NE s' ∧ s.obj.length ≤ s'.obj.length ∧
      s'.total ≤ s.total
  | 0, s, i, c, _, _, hf, _ => by omega
  | fuel + 1, s, i, c, hs, hn, hf, hi => by
    rw [subsumeClause, hi]
    simp only
    obtain ⟨best, hb⟩ := minOcc_some (occ := s.occ) (hn i c hi)
    rw [hb]
    simp only
    obtain ⟨s1, out, e1, e2, e3, e4, e5⟩ := subsumeScan_total (before := before) (start := i)
      (s.occ best.var) s i hs hn (hs.occLt _) ⟨c, hi, Or.inl rfl⟩
    rw [e1]
    have hs1 := ((subsumeScan_steps _ _ _ hs (Or.inl rfl) _ _ e1).1.sound hs).1
    cases out with
    | done => exact ⟨s1, true, rfl, e2, e3, e4⟩
    | unsat => exact ⟨s1, false, rfl, e2, e3, e4⟩
    | again j =>
      obtain ⟨h1, c', h2⟩ := e5 j rfl
      obtain ⟨s2, b, f1, f2, f3, f4⟩ := subsumeClause_total (before := before) fuel s1 j c' hs1 e2 (by omega) h2
      exact ⟨s2, b, f1, f2, by omega, by omega⟩

theorem unitScan_total {i : Nat} {u : Lit} : ∀ (os : List Nat) (s : SDB) (ci : Nat), SOk F s → NE s →
    s.obj[i]? = some (some ci) → s.db.lits ci = [u] → os.Nodup →
    (∀ o ∈ os, o < s.obj.length) →
    (∀ o ∈ os, ∀ c, s.obj[o]? = some (some c) → ∃ l ∈ s.db.lits c, l.var = u.var) →
    ∃ s' b, unitScan i u os s = some (s', b) ∧ NE s' ∧ s.obj.length ≤ s'.obj.length ∧ s'.total ≤ s.total
  | [], s, ci, _, hn, _, _, _, _, _ => ⟨s, true, rfl, hn, Nat.le_refl _, Nat.le_refl _⟩
  | o :: os, s, ci, hs, hn, hi, hl, hnd, hlt, hv => by
    have hv' : ∀ x ∈ os, ∀ c, s.obj[x]? = some (some c) → ∃ l ∈ s.db.lits c, l.var = u.var :=
      fun x hx => hv x (by simp [hx])
    have hlt' : ∀ x ∈ os, x < s.obj.length := fun x hx => hlt x (by simp [hx])
    have hn' := (List.nodup_cons.1 hnd).2
    have hno := (List.nodup_cons.1 hnd).1
    rw [unitScan]
    have ho := List.getElem?_eq_getElem (hlt o (by simp))
    cases hob : s.obj[o]? with
    | none => rw [hob] at ho; simp at ho
    | some oo =>
    cases oo with
    | none => exact unitScan_total os s ci hs hn hi hl hn' hlt' hv'
    | some oc =>
    simp only
    by_cases hoi : o = i
    · rw [if_pos hoi]
      exact unitScan_total os s ci hs hn hi hl hn' hlt' hv'
    rw [if_neg hoi]
    have next : ∀ s1 : SDB, SOk F s1 → DBExt s.db s1.db → NE s1 → s1.total ≤ s.total →
        s1.obj.length = s.obj.length → (∀ j, j ≠ o → s1.obj[j]? = s.obj[j]?) →
        ∃ s' b, unitScan i u os s1 = some (s', b) ∧ NE s' ∧ s.obj.length ≤ s'.obj.length ∧
          s'.total ≤ s.total := by
      intro s1 k1 k2 k3 k4 k5 k6
      obtain ⟨s2, b, f1, f2, f3, f4⟩ := unitScan_total (i := i) (u := u) os s1 ci k1 k3
        (by rw [k6 i (fun e => hoi e.symm), hi]) (by rw [k2.lits ci (hs.lt hi), hl]) hn'
        (by rw [k5]; exact hlt')
        (by
          intro x hx c hc
          rw [k6 x (fun e => hno (e ▸ hx))] at hc
          rw [k2.lits c (hs.lt hc)]
          exact hv' x hx c hc)
      exact ⟨s2, b, f1, f2, by omega, by omega⟩
    by_cases hu : u ∈ s.db.lits oc
    · rw [if_pos hu]
      obtain ⟨s1, e1, e2, e3, e4, e5, e6, e7, e8⟩ := remove_total hob
      rw [e1]
      obtain ⟨k1, k2⟩ := hs.remove e1
      exact next s1 k1 k2 (e3 hn) (by omega) e4 e5
    rw [if_neg hu]
    have hun : u.neg ∈ s.db.lits oc := by
      obtain ⟨l, h1, h2⟩ := hv o (by simp) oc hob
      rcases Lit.eq_or_neg_of_var h2 with rfl | rfl
      · exact (hu h1).elim
      · exact h1
    by_cases hlen : (s.db.lits oc).length = 1
    · rw [if_pos hlen]
      exact ⟨s, false, rfl, hn, Nat.le_refl _, Nat.le_refl _⟩
    rw [if_neg hlen]
    obtain ⟨s1, e1, e2, e3, e4, e5, e6, e7⟩ := strengthen_total (l := u.neg) hs hob
    rw [e1]
    have hlen' : 1 < (s.db.lits oc).length := by
      have : 0 < (s.db.lits oc).length := List.length_pos_of_mem hun
      omega
    have st : SStep s s1 := .strengthen e1 hob hi (fun e => hoi e.symm) (by rw [hl]; simp) hun hlen'
      (by rw [hl]; simp +contextual)
    obtain ⟨k1, k2⟩ := st.sound hs
    exact next s1 k1 k2 (e4 hlen' hn) e2 e5 e6

theorem subsumeList_total {before : Nat → Nat → Bool} {fuel : Nat} : ∀ (is : List Nat) (s : SDB), SOk F s →
    NE s → (∀ i ∈ is, i < s.obj.length) → s.total < fuel →
    ∃ s' b, subsumeList before fuel is s = some (s', b)
  | [], s, _, _, _, _ => ⟨s, true, rfl⟩
  | i :: is, s, hs, hn, hlt, hf => by
    rw [subsumeList]
    have hi := List.getElem?_eq_getElem (hlt i (by simp))
    have step : ∃ s1 b, subsumeStep before fuel s i = some (s1, b) ∧ NE s1 ∧ s.obj.length ≤ s1.obj.length ∧
        s1.total ≤ s.total := by
      rw [subsumeStep]
      cases hob : s.obj[i]? with
      | none => rw [hob] at hi; simp at hi
      | some oo =>
      cases oo with
      | none => exact ⟨s, true, rfl, hn, Nat.le_refl _, Nat.le_refl _⟩
      | some c =>
        simp only
        split
        · rename_i u hu
          exact unitScan_total _ s c hs hn hob hu (hs.occNd _) (hs.occLt _) (hs.occVar _)
        · exact subsumeClause_total fuel s i c hs hn hf hob
    obtain ⟨s1, b, e1, e2, e3, e4⟩ := step
    rw [e1]
    cases b with
    | false => exact ⟨s1, false, rfl⟩
    | true =>
      exact subsumeList_total is s1 ((subsumeStep_steps hs e1).1.sound hs).1 e2
        (fun x hx => Nat.lt_of_lt_of_le (hlt x (by simp [hx])) e3) (by omega)

/-- Subsumption never touches a deleted or unknown object, and its recursion ends. -/
theorem subsumeAll_total {before : Nat → Nat → Bool} {fuel : Nat} (hs : SOk F s)
    (he : s.db.hasEmpty = false) (hf : s.total < fuel) :
    ∃ s' b, subsumeAll before fuel s = some (s', b) :=
  subsumeList_total _ s hs (hs.ne he) (by simp) hf

/-! The fuel does not influence the result. -/

theorem subsumeClause_mono {before : Nat → Nat → Bool} : ∀ (f f' : Nat) (s : SDB) (i : Nat) (x : SDB × Bool),
    f ≤ f' → subsumeClause before f s i = some x → subsumeClause before f' s i = some x
  | 0, _, _, _, _, _, h => by simp [subsumeClause] at h
  | f + 1, 0, _, _, _, hf, _ => by omega
  | f + 1, f' + 1, s, i, x, hf, h => by
    rw [subsumeClause] at h ⊢
    split at h
    · split at h
      · simp at h
      · split at h
        · simp at h
        · exact h
        · exact h
        · exact subsumeClause_mono f f' _ _ x (by omega) h
    · simp at h

theorem subsumeList_mono {before : Nat → Nat → Bool} {f f' : Nat} (hf : f ≤ f') : ∀ (is : List Nat) (s : SDB)
    (x : SDB × Bool), subsumeList before f is s = some x → subsumeList before f' is s = some x
  | [], s, x, h => h
  | i :: is, s, x, h => by
    have hstep : ∀ y, subsumeStep before f s i = some y → subsumeStep before f' s i = some y := by
      intro y hy
      rw [subsumeStep] at hy ⊢
      split at hy
      · simp at hy
      · exact hy
      · split at hy
        · exact hy
        · exact subsumeClause_mono f f' s i y hf hy
    rw [subsumeList] at h ⊢
    split at h
    · simp at h
    · rename_i s1 hs1; rw [hstep _ hs1]; exact h
    · rename_i s1 hs1; rw [hstep _ hs1]; exact subsumeList_mono hf is s1 x h

theorem subsumeAll_mono {before : Nat → Nat → Bool} {f f' : Nat} (hf : f ≤ f') {x : SDB × Bool}
    (h : subsumeAll before f s = some x) : subsumeAll before f' s = some x :=
  subsumeList_mono hf _ _ _ h

end Candy
