import Verif.Model.ProcessLoop
import Verif.Proofs.SolveTotal

/-!
# The loop of `processClauseDatabase` ends
-/

namespace Candy

variable {F : CNF}

/-! ### The counters do not influence the result -/

/-- Forget the counter. -/
def drop3 {α β : Type} (x : Option (α × β × Nat)) : Option (α × β) := x.map fun x => (x.1, x.2.1)

theorem drop3_some {α β : Type} {x : Option (α × β × Nat)} {a : α} {b : β} (h : drop3 x = some (a, b)) :
    ∃ n, x = some (a, b, n) := by
  unfold drop3 at h
  cases x with
  | none => simp at h
  | some y =>
    obtain ⟨y1, y2, y3⟩ := y
    simp at h
    obtain ⟨rfl, rfl⟩ := h
    exact ⟨y3, rfl⟩

theorem subsumeScanN_drop {before : Nat → Nat → Bool} {start : Nat} : ∀ (os : List Nat) (s : SDB) (cur n : Nat),
    drop3 (subsumeScanN before start os s cur n) = subsumeScan before start os s cur
  | [], s, cur, n => rfl
  | o :: os, s, cur, n => by
    rw [subsumeScanN, subsumeScan]
    cases s.obj[o]? with
    | none => rfl
    | some oo =>
    cases oo with
    | none => exact subsumeScanN_drop os s cur n
    | some oc =>
    simp only
    by_cases hoc : o = cur
    · rw [if_pos hoc, if_pos hoc]; exact subsumeScanN_drop os s cur n
    rw [if_neg hoc, if_neg hoc]
    rcases s.obj[cur]? with _ | _ | cc
    · rfl
    · rfl
    simp only
    rcases subsumes (s.db.lits cc) (s.db.lits oc) with _ | _ | l
    · exact subsumeScanN_drop os s cur n
    · simp only
      by_cases h1 : (s.db.lits cc).length = (s.db.lits oc).length ∧ ((s.db.store cc).weight < (s.db.store oc).weight ∨
          ((s.db.store cc).weight = (s.db.store oc).weight ∧ before cc oc = true))
      · rw [if_pos h1, if_pos h1]
        cases s.remove o with
        | none => rfl
        | some s1 => exact subsumeScanN_drop os s1 cur n
      rw [if_neg h1, if_neg h1]
      by_cases h2 : ((s.db.store oc).isPersistent && (s.db.store cc).isLearnt) = true
      · rw [if_pos h2, if_pos h2]
        cases (s.create (s.db.lits cc)).remove start with
        | none => rfl
        | some s1 =>
          simp only
          cases s1.remove o with
          | none => rfl
          | some s2 => exact subsumeScanN_drop os s2 _ (n + 1)
      · rw [if_neg h2, if_neg h2]
        cases s.remove o with
        | none => rfl
        | some s1 => exact subsumeScanN_drop os s1 cur (n + 1)
    · simp only
      by_cases h1 : 1 < (s.db.lits oc).length
      · rw [if_pos h1, if_pos h1]
        cases s.strengthen o l.neg with
        | none => rfl
        | some s1 => rfl
      · rw [if_neg h1, if_neg h1]; rfl

theorem subsumeClauseN_drop {before : Nat → Nat → Bool} : ∀ (fuel : Nat) (s : SDB) (i n : Nat),
    drop3 (subsumeClauseN before fuel s i n) = subsumeClause before fuel s i
  | 0, _, _, _ => rfl
  | fuel + 1, s, i, n => by
    rw [subsumeClauseN, subsumeClause]
    rcases s.obj[i]? with _ | _ | c
    · rfl
    · rfl
    simp only
    rcases minOcc s.occ (s.db.lits c) with _ | best
    · rfl
    simp only
    rw [← subsumeScanN_drop (before := before) (start := i) (s.occ best.var) s i n]
    rcases subsumeScanN before i (s.occ best.var) s i n with _ | ⟨s1, out, m⟩
    · rfl
    cases out with
    | done => rfl
    | unsat => rfl
    | again j => exact subsumeClauseN_drop fuel s1 j m

theorem subsumeStepN_drop {before : Nat → Nat → Bool} {fuel : Nat} (s : SDB) (i n : Nat) :
    drop3 (subsumeStepN before fuel s i n) = subsumeStep before fuel s i := by
  rw [subsumeStepN, subsumeStep]
  rcases s.obj[i]? with _ | _ | c
  · rfl
  · rfl
  simp only
  rcases s.db.lits c with _ | ⟨u, _ | ⟨w, ws⟩⟩
  · exact subsumeClauseN_drop fuel s i n
  · simp only
    cases unitScan i u (s.occ u.var) s with
    | none => rfl
    | some x => rfl
  · exact subsumeClauseN_drop fuel s i n

theorem subsumeListN_drop {before : Nat → Nat → Bool} {fuel : Nat} : ∀ (is : List Nat) (s : SDB) (n : Nat),
    drop3 (subsumeListN before fuel is s n) = subsumeList before fuel is s
  | [], s, n => rfl
  | i :: is, s, n => by
    rw [subsumeListN, subsumeList, ← subsumeStepN_drop (n := n)]
    cases subsumeStepN before fuel s i n with
    | none => rfl
    | some x =>
      obtain ⟨s1, b, m⟩ := x
      cases b with
      | false => rfl
      | true => exact subsumeListN_drop is s1 m

theorem subsumeAllN_drop {before : Nat → Nat → Bool} {fuel : Nat} (s : SDB) :
    drop3 (subsumeAllN before fuel s) = subsumeAll before fuel s := subsumeListN_drop _ s 0

theorem asymScanN_drop {v : Nat} : ∀ (os : List Nat) (st : AVS) (n : Nat),
    drop3 (asymScanN v os st n) = asymScan v os st
  | [], st, n => by simp [asymScanN, asymScan, drop3]
  | o :: os, st, n => by
    rw [asymScanN, asymScan]
    rcases st.s.obj[o]? with _ | _ | c
    · rfl
    · exact asymScanN_drop os st n
    dsimp only
    by_cases h1 : ((st.s.db.lits c).any fun l => st.T.satisfies l) = true
    · rw [if_pos h1, if_pos h1]; exact asymScanN_drop os st n
    rw [if_neg h1, if_neg h1]
    rcases propagateLoop st.s.db.bin (st.s.db.nVars + 1) ⟨st.s.db.store, st.watch,
      (asymDecide v (st.s.db.lits c) st.T.newDecisionLevel none).1⟩ with _ | ⟨ps, _ | cf⟩
    · rfl
    · exact asymScanN_drop os _ n
    simp only
    by_cases h2 : 1 < (st.s.db.lits c).length
    · rw [if_pos h2, if_pos h2]
      rcases (asymDecide v (st.s.db.lits c) st.T.newDecisionLevel none).2 with _ | l
      · rfl
      simp only
      rcases SDB.strengthen { st.s with db := { st.s.db with store := ps.store } } o l with _ | s1
      · rfl
      · exact asymScanN_drop os _ (n + 1)
    · rw [if_neg h2, if_neg h2]; rfl

theorem asymListN_drop : ∀ (vs : List Nat) (st : AVS) (n : Nat), drop3 (asymListN vs st n) = asymList vs st
  | [], st, n => rfl
  | v :: vs, st, n => by
    rw [asymListN, asymList]
    split
    · rw [← asymScanN_drop (n := n)]
      cases asymScanN v (st.s.occ v) st n with
      | none => rfl
      | some x =>
        obtain ⟨st1, b, m⟩ := x
        cases b with
        | false => rfl
        | true => exact asymListN_drop vs st1 m
    · exact asymListN_drop vs st n

theorem asymAllN_drop {active : Bool} (st : AVS) : drop3 (asymAllN active st) = asymAll active st := by
  rw [asymAllN, asymAll]
  split
  · exact asymListN_drop _ st 0
  · rfl

theorem eliminateStepN_drop {lim : Nat} (st : VES) (v n : Nat) :
    drop3 (eliminateStepN lim st v n) = eliminateStep lim st v := by
  rw [eliminateStepN, eliminateStep]
  by_cases h1 : st.T.assigns v = none
  · rw [if_pos h1, if_pos h1]
    rcases liveOcc st.s (st.s.occ v) with _ | os
    · rfl
    dsimp only
    generalize (os.filter fun x => decide ((⟨v, false⟩ : Lit) ∈ st.s.db.lits x.2)) = pos
    generalize (os.filter fun x => !decide ((⟨v, false⟩ : Lit) ∈ st.s.db.lits x.2)) = neg
    rw [eliminateVarN, eliminateVar]
    by_cases h2 : pos.length = 0 ∧ neg.length = 0
    · rw [if_pos h2, if_pos h2]; rfl
    rw [if_neg h2, if_neg h2]
    dsimp only
    cases countResolvents v (pos.length + neg.length) lim (pairs (pos.map fun x => st.s.db.lits x.2)
      (neg.map fun x => st.s.db.lits x.2)) 0 with
    | unsat => rfl
    | skip => rfl
    | go =>
      simp only
      rcases removeAll (pos.map Prod.fst ++ neg.map Prod.fst)
        (createResolvents v (pairs (pos.map Prod.snd) (neg.map Prod.snd)) st.s) with _ | s1
      · rfl
      · rfl
  · rw [if_neg h1, if_neg h1]; rfl

theorem eliminateListN_drop {lim : Nat} : ∀ (vs : List Nat) (st : VES) (n : Nat),
    drop3 (eliminateListN lim vs st n) = eliminateList lim vs st
  | [], st, n => rfl
  | v :: vs, st, n => by
    rw [eliminateListN, eliminateList, ← eliminateStepN_drop (n := n)]
    cases eliminateStepN lim st v n with
    | none => rfl
    | some x =>
      obtain ⟨st1, b, m⟩ := x
      cases b with
      | false => rfl
      | true => exact eliminateListN_drop vs st1 m

theorem eliminateAllN_drop {active : Bool} {lim : Nat} {order : (Nat → Nat) → List Nat → List Nat} (st : VES) :
    drop3 (eliminateAllN active lim order st) = eliminateAll active lim order st := by
  rw [eliminateAllN, eliminateAll]
  dsimp only
  split
  · exact eliminateListN_drop _ _ 0
  · rfl

/-! ### Every counted step reduces the number of literals -/

theorem subsumeScanN_le {before : Nat → Nat → Bool} {start : Nat} :
    ∀ (os : List Nat) (s : SDB) (cur n : Nat), SOk F s → NE s → (∀ o ∈ os, o < s.obj.length) →
      (∃ c, s.obj[cur]? = some (some c) ∧ (cur = start ∨
        ((s.db.store c).weight = 0 ∧ ∀ i : Nat, s.obj[i]? = some (some c) → i = cur))) →
      ∃ s' out n', subsumeScanN before start os s cur n = some (s', out, n') ∧
        (out ≠ .unsat → s'.total + n' ≤ s.total + n)
  | [], s, cur, n, _, hn, _, _ => by
    exact ⟨s, .done, n, rfl, fun _ => Nat.le_refl _⟩
  | o :: os, s, cur, n, hs, hn, hlt, ⟨cc, hcc, hst⟩ => by
    have hlt' : ∀ x ∈ os, x < s.obj.length := fun x hx => hlt x (by simp [hx])
    rw [subsumeScanN]
    have ho := List.getElem?_eq_getElem (hlt o (by simp))
    cases hob : s.obj[o]? with
    | none => rw [hob] at ho; simp at ho
    | some oo =>
    cases oo with
    | none => exact subsumeScanN_le os s cur n hs hn hlt' ⟨cc, hcc, hst⟩
    | some oc =>
    simp only
    by_cases hoc : o = cur
    · rw [if_pos hoc]
      exact subsumeScanN_le os s cur n hs hn hlt' ⟨cc, hcc, hst⟩
    rw [if_neg hoc, hcc]
    simp only
    -- plain removal of `o`
    have hpos : 1 ≤ (s.db.lits oc).length := List.length_pos_iff.2 (hn o oc hob)
    have plain : ∀ m, m ≤ n + 1 → ∃ s' out n', (match s.remove o with
          | none => none
          | some s => subsumeScanN before start os s cur m) = some (s', out, n') ∧
        (out ≠ .unsat → s'.total + n' ≤ s.total + n) := by
      intro m hm
      obtain ⟨s1, e1, e2, e3, e4, e5, e6, e7, e8⟩ := remove_total hob
      rw [e1]
      have hcc1 : s1.obj[cur]? = some (some cc) := by rw [e5 cur (fun e => hoc e.symm)]; exact hcc
      obtain ⟨s2, out, n', f1, f2⟩ := subsumeScanN_le (before := before) (start := start) os s1 cur m
        (hs.remove e1).1 (e3 hn)
        (by rw [e4]; exact hlt') ⟨cc, hcc1, hst.imp id (by
          rintro ⟨h1, h2⟩
          refine ⟨?_, ?_⟩
          · rw [e8 cc (fun e => hoc (h2 o (by rw [hob, e])))]; exact h1
          · intro i hi
            by_cases hio : i = o
            · subst hio; rw [e6] at hi; simp at hi
            · rw [e5 i hio] at hi; exact h2 i hi)⟩
      exact ⟨s2, out, n', f1, fun h => by have := f2 h; omega⟩
    cases hsub : subsumes (s.db.lits cc) (s.db.lits oc) with
    | none => exact subsumeScanN_le os s cur n hs hn hlt' ⟨cc, hcc, hst⟩
    | some r =>
    cases r with
    | none =>
      simp only
      split
      · exact plain _ (by omega)
      · split
        · rename_i hp
          -- the clause becomes persistent
          have hcs : cur = start := by
            rcases hst with h | ⟨h, _⟩
            · exact h
            · simp [Cls.isLearnt, h] at hp
          subst hcs
          have hclt := hs.lt hcc
          have hok1 : SOk F (s.create (s.db.lits cc)) :=
            hs.create (hs.db.wf _ hclt) (hs.db.nd _ hclt) (hs.db.ent _ hclt)
          obtain ⟨k1, k2⟩ := create_total hs (s.db.lits cc) 0
          have hol := (List.getElem?_eq_some_iff.1 hob).1
          have hcl := (List.getElem?_eq_some_iff.1 hcc).1
          have hcc1 : (s.create (s.db.lits cc)).obj[cur]? = some (some cc) := by
            rw [create_obj, List.getElem?_append_left hcl, hcc]
          have hob1 : (s.create (s.db.lits cc)).obj[o]? = some (some oc) := by
            rw [create_obj, List.getElem?_append_left hol, hob]
          have hnew1 : (s.create (s.db.lits cc)).obj[s.obj.length]? = some (some s.db.next) := by
            rw [create_obj]; simp
          have hlen1 : (s.create (s.db.lits cc)).obj.length = s.obj.length + 1 := by
            rw [create_obj]; simp
          have hlits1 : ∀ d < s.db.next, (s.create (s.db.lits cc)).db.lits d = s.db.lits d := by
            intro d hd
            rw [create_db, createClause_lits, if_neg (by omega)]
          have hw1 : ((s.create (s.db.lits cc)).db.store s.db.next).weight = 0 := by
            rw [create_db]; simp
          obtain ⟨s1, e1, e2, e3, e4, e5, e6, e7, e8⟩ := remove_total hcc1
          rw [e1]
          simp only
          have hob2 : s1.obj[o]? = some (some oc) := by rw [e5 o hoc]; exact hob1
          obtain ⟨s2, f1, f2, f3, f4, f5, f6, f7, f8⟩ := remove_total hob2
          rw [f1]
          simp only
          have holt := hs.lt hob
          have hnew2 : s2.obj[s.obj.length]? = some (some s.db.next) := by
            rw [f5 _ (by omega), e5 _ (by omega)]; exact hnew1
          obtain ⟨s3, out, n', g1, g2⟩ := subsumeScanN_le (before := before) (start := cur) os s2
            s.obj.length (n + 1) ((hok1.remove e1).1.remove f1).1 (f3 (e3 (k2 (hn _ _ hcc) hn)))
            (by intro x hx; have := hlt' x hx; omega)
            ⟨s.db.next, hnew2, Or.inr ⟨by
              rw [f8 _ (by omega), e8 _ (by omega)]; exact hw1, by
              intro i hi
              by_cases hio : i = o
              · subst hio; rw [f6] at hi; simp at hi
              · rw [f5 i hio] at hi
                by_cases hic : i = cur
                · subst hic; rw [e6] at hi; simp at hi
                · rw [e5 i hic, create_obj] at hi
                  by_cases hil : i < s.obj.length
                  · rw [List.getElem?_append_left hil] at hi
                    have := hs.lt hi; omega
                  · have := (List.getElem?_eq_some_iff.1 hi).1
                    simp at this; omega⟩⟩
          rw [hlits1 cc hclt] at e2
          rw [e7, hlits1 oc holt] at f2
          exact ⟨s3, out, n', g1, fun h => by have := g2 h; omega⟩
        · exact plain _ (by omega)
    | some l =>
      simp only
      obtain ⟨h1, h2, h3, h4⟩ := subsumes_some hsub
      split
      · rename_i hlen
        obtain ⟨s1, e1, e2, e3, e4, e5, e6, e7⟩ := strengthen_total (l := l.neg) hs hob
        rw [e1]
        exact ⟨s1, .again o, n + 1, rfl, fun _ => by have := e3 h2; omega⟩
      · exact ⟨s, .unsat, n + 1, rfl, fun h => (h rfl).elim⟩

theorem subsumeClauseN_le {before : Nat → Nat → Bool} : ∀ (fuel : Nat) (s : SDB) (i n : Nat) (s' : SDB) (n' : Nat),
    SOk F s → NE s → subsumeClauseN before fuel s i n = some (s', true, n') → s'.total + n' ≤ s.total + n
  | 0, s, i, n, s', n', _, _, h => by simp [subsumeClauseN] at h
  | fuel + 1, s, i, n, s', n', hs, hn, h => by
    rw [subsumeClauseN] at h
    rcases hi : s.obj[i]? with _ | _ | c
    · rw [hi] at h; simp at h
    · rw [hi] at h; simp at h
    rw [hi] at h
    simp only at h
    obtain ⟨best, hb⟩ := minOcc_some (occ := s.occ) (hn i c hi)
    rw [hb] at h
    simp only at h
    obtain ⟨s1, out, m, e1, e2⟩ := subsumeScanN_le (before := before) (start := i) (s.occ best.var) s i n hs hn
      (hs.occLt _) ⟨c, hi, Or.inl rfl⟩
    obtain ⟨t1, o1, f1, f2, -, -, f5⟩ := subsumeScan_total (before := before) (start := i) (s.occ best.var) s i hs hn
      (hs.occLt _) ⟨c, hi, Or.inl rfl⟩
    have hd := subsumeScanN_drop (before := before) (start := i) (s.occ best.var) s i n
    rw [e1, f1] at hd
    simp only [drop3, Option.map_some, Option.some.injEq, Prod.mk.injEq] at hd
    obtain ⟨rfl, rfl⟩ := hd
    rw [e1] at h
    cases out with
    | done =>
      simp only [Option.some.injEq, Prod.mk.injEq] at h
      obtain ⟨rfl, -, rfl⟩ := h
      exact e2 (by simp)
    | unsat => simp at h
    | again j =>
      simp only at h
      have hs1 := ((subsumeScan_steps _ _ _ hs (Or.inl rfl) _ _ f1).1.sound hs).1
      have := subsumeClauseN_le fuel s1 j m s' n' hs1 f2 h
      have := e2 (by simp)
      omega

theorem subsumeListN_le {before : Nat → Nat → Bool} {fuel : Nat} : ∀ (is : List Nat) (s : SDB) (n : Nat) (s' : SDB) (n' : Nat),
    SOk F s → NE s → (∀ i ∈ is, i < s.obj.length) → s.total < fuel →
    subsumeListN before fuel is s n = some (s', true, n') → s'.total + n' ≤ s.total + n
  | [], s, n, s', n', _, _, _, _, h => by
    simp only [subsumeListN, Option.some.injEq, Prod.mk.injEq] at h
    obtain ⟨rfl, -, rfl⟩ := h
    exact Nat.le_refl _
  | i :: is, s, n, s', n', hs, hn, hlt, hf, h => by
    rw [subsumeListN] at h
    have hi := List.getElem?_eq_getElem (hlt i (by simp))
    have step : ∃ s1 b m, subsumeStepN before fuel s i n = some (s1, b, m) ∧ NE s1 ∧ s.obj.length ≤ s1.obj.length ∧
        s1.total ≤ s.total ∧ (b = true → s1.total + m ≤ s.total + n) := by
      rw [subsumeStepN]
      rcases hob : s.obj[i]? with _ | _ | c
      · rw [hob] at hi; simp at hi
      · exact ⟨s, true, n, rfl, hn, Nat.le_refl _, Nat.le_refl _, fun _ => Nat.le_refl _⟩
      simp only
      split
      · rename_i u hu
        obtain ⟨s1, b, e1, e2, e3, e4⟩ := unitScan_total _ s c hs hn hob hu (hs.occNd _) (hs.occLt _) (hs.occVar _)
        rw [e1]
        exact ⟨s1, b, n, rfl, e2, e3, e4, fun _ => by omega⟩
      · obtain ⟨s1, b, e1, e2, e3, e4⟩ := subsumeClause_total (before := before) fuel s i c hs hn hf hob
        obtain ⟨m, e5⟩ := drop3_some ((subsumeClauseN_drop fuel s i n).trans e1)
        rw [e5]
        refine ⟨s1, b, m, rfl, e2, e3, e4, ?_⟩
        rintro rfl
        exact subsumeClauseN_le fuel s i n s1 m hs hn e5
    obtain ⟨s1, b, m, e1, e2, e3, e4, e5⟩ := step
    rw [e1] at h
    cases b with
    | false => simp at h
    | true =>
      simp only at h
      have hst : subsumeStep before fuel s i = some (s1, true) := by
        rw [← subsumeStepN_drop (n := n), e1]; rfl
      have := subsumeListN_le is s1 m s' n' ((subsumeStep_steps hs hst).1.sound hs).1 e2
        (fun x hx => Nat.lt_of_lt_of_le (hlt x (by simp [hx])) e3) (by omega) h
      have := e5 rfl
      omega

theorem subsumeAllN_le {before : Nat → Nat → Bool} {fuel : Nat} {s s' : SDB} {n : Nat} (hs : SOk F s)
    (he : s.db.hasEmpty = false) (hf : s.total < fuel) (h : subsumeAllN before fuel s = some (s', true, n)) :
    s'.total + n ≤ s.total :=
  subsumeListN_le _ s 0 s' n hs (hs.ne he) (by simp) hf h

theorem asymScanN_cons (v o : Nat) (os : List Nat) (st : AVS) (n : Nat) :
    asymScanN v (o :: os) st n = (asymScanN v [o] st n).bind fun x =>
      if x.2.1 then asymScanN v os x.1 x.2.2 else some (x.1, false, x.2.2) := by
  rw [asymScanN, asymScanN]
  split
  · rfl
  · simp [asymScanN]
  · dsimp only
    split
    · simp [asymScanN]
    · split
      · rfl
      · split
        · simp [asymScanN]
        · split
          · split
            · rfl
            · split
              · rfl
              · simp [asymScanN]
          · simp

theorem asymOneN_le {v o n m : Nat} {st st' : AVS} (h : AOk F st)
    (he : asymScanN v [o] st n = some (st', true, m)) : st'.s.total + m ≤ st.s.total + n := by
  rw [asymScanN] at he
  rcases hc : st.s.obj[o]? with _ | _ | c
  · rw [hc] at he; simp at he
  · rw [hc] at he
    simp only [asymScanN, Option.some.injEq, Prod.mk.injEq] at he
    obtain ⟨rfl, -, rfl⟩ := he
    exact Nat.le_refl _
  rw [hc] at he
  dsimp only at he
  split at he
  · simp only [asymScanN, Option.some.injEq, Prod.mk.injEq] at he
    obtain ⟨rfl, -, rfl⟩ := he
    exact Nat.le_refl _
  have hclt := h.ok.lt hc
  generalize hdec : asymDecide v (st.s.db.lits c) st.T.newDecisionLevel none = r at he
  obtain ⟨T1, l1⟩ := r
  let D := asymKeep v st.T (st.s.db.lits c)
  have hG : ∀ a, Sat a (F ++ unitsOf (D.map Lit.neg)) → Sat a F := fun a ha => (sat_append.1 ha).1
  have hcore1 := CoreB.newLevel (h.core.toBase h.lim hG 1) h.lim
  have hb1 : st.T.newDecisionLevel.decisionLevel ≤ 1 := by
    simp [Trail.newDecisionLevel, Trail.decisionLevel, h.lim]
  obtain ⟨a1, -, -, -, -, -, -, -, -, hmem⟩ := asymDecide_spec (v := v) (T0 := st.T)
    (ls := st.s.db.lits c) (st.s.db.lits c) st.T.newDecisionLevel none hcore1 hb1
    (h.ok.db.wf c hclt) (h.ok.db.nd c hclt) (fun _ h => h) (fun _ _ => rfl) (by
      intro x hx a ha
      have := sat_unitsOf.1 (sat_append.1 ha).2 x.neg (List.mem_map.2 ⟨x, hx, rfl⟩)
      exact ⟨x.neg, by simp, this⟩) T1 l1 hdec
  obtain ⟨ps, rr, e1, e2, e3, e4, e5, e6, e7, _, _⟩ := propagateLoop_specL (L := False)
    (A := fun _ => False) (st.s.db.nVars + 1) ⟨st.s.db.store, st.watch, T1⟩ a1 h.watch
    (fun h => h.elim) (by omega)
  simp only at he
  rw [e1] at he
  have hgp : GStep F st.s { st.s with db := { st.s.db with store := ps.store } } := .perm e5
  obtain ⟨hsk, hse⟩ := hgp.sound h.ok
  have htot : SDB.total { st.s with db := { st.s.db with store := ps.store } } = st.s.total := by
    unfold SDB.total
    rw [objLen_congr]
    intro i d hd
    exact (hse.lits d (h.ok.lt hd)).length_eq
  cases rr with
  | none =>
    simp only [asymScanN, Option.some.injEq, Prod.mk.injEq] at he
    obtain ⟨rfl, -, rfl⟩ := he
    simp only [htot]
    exact Nat.le_refl _
  | some cf =>
    simp only at he
    split at he
    · cases l1 with
      | none => simp at he
      | some l =>
        simp only at he
        obtain ⟨s2, k1, -, k2, -⟩ := strengthen_total (l := l) hsk (i := o) (c := c) hc
        simp only [k1, asymScanN, Option.some.injEq, Prod.mk.injEq] at he
        obtain ⟨rfl, -, rfl⟩ := he
        have hl : l ∈ st.s.db.lits c := by
          rcases hmem l rfl with h | h
          · simp at h
          · exact h.1
        have := k2 ((hse.lits c hclt).mem_iff.2 hl)
        simp only
        rw [htot] at this
        omega
    · simp at he

theorem asymScanN_le {v : Nat} : ∀ (os : List Nat) (st : AVS) (n : Nat) (st' : AVS) (n' : Nat), AOk F st → os.Nodup →
    (∀ o ∈ os, o < st.s.obj.length) →
    (∀ o ∈ os, ∀ c, st.s.obj[o]? = some (some c) → ∃ l ∈ st.s.db.lits c, l.var = v) →
    asymScanN v os st n = some (st', true, n') → st'.s.total + n' ≤ st.s.total + n
  | [], st, n, st', n', _, _, _, _, he => by
    simp only [asymScanN, Option.some.injEq, Prod.mk.injEq] at he
    obtain ⟨rfl, -, rfl⟩ := he
    exact Nat.le_refl _
  | o :: os, st, n, st', n', h, hn, hl, hv, he => by
    have hn' := List.nodup_cons.1 hn
    obtain ⟨st1, b, e1, e2, e3⟩ := asymOne_total h (hl o (by simp)) (hv o (by simp))
    obtain ⟨a1, a2, -, -⟩ := asymScan_spec [o] st h (by simp) (by
      intro x hx; simp at hx; subst hx; exact hv x (by simp)) st1 b e1
    obtain ⟨m, e4⟩ := drop3_some ((asymScanN_drop [o] st n).trans e1)
    rw [asymScanN_cons, e4] at he
    cases b with
    | false => simp at he
    | true =>
      obtain ⟨_, hx⟩ := a2.sound h.ok
      have := asymScanN_le os st1 m st' n' a1 hn'.2 (by
          intro x hx; rw [e2]; exact hl x (by simp [hx])) (by
          intro x hxm c hc
          have hxo : x ≠ o := fun e => hn'.1 (e ▸ hxm)
          rw [e3 x hxo] at hc
          obtain ⟨l, h1, h2⟩ := hv x (by simp [hxm]) c hc
          exact ⟨l, (hx.lits c (h.ok.lt hc)).mem_iff.2 h1, h2⟩) (by simpa using he)
      have := asymOneN_le h e4
      omega

theorem asymListN_le : ∀ (vs : List Nat) (st : AVS) (n : Nat) (st' : AVS) (n' : Nat), AOk F st →
    asymListN vs st n = some (st', true, n') → st'.s.total + n' ≤ st.s.total + n
  | [], st, n, st', n', _, he => by
    simp only [asymListN, Option.some.injEq, Prod.mk.injEq] at he
    obtain ⟨rfl, -, rfl⟩ := he
    exact Nat.le_refl _
  | v :: vs, st, n, st', n', h, he => by
    rw [asymListN] at he
    split at he
    · rcases e : asymScanN v (st.s.occ v) st n with _ | ⟨st1, b, m⟩
      · rw [e] at he; simp at he
      rw [e] at he
      cases b with
      | false => simp at he
      | true =>
        simp only at he
        have e' : asymScan v (st.s.occ v) st = some (st1, true) := by rw [← asymScanN_drop (n := n), e]; rfl
        have := asymListN_le vs st1 m st' n' (asymScan_spec _ st h (h.ok.occNd v) (h.ok.occVar v) _ _ e').1 he
        have := asymScanN_le (st.s.occ v) st n st1 m h (h.ok.occNd v) (h.ok.occLt v) (h.ok.occVar v) e
        omega
    · exact asymListN_le vs st n st' n' h he

theorem asymAllN_le {active : Bool} {st st' : AVS} {n : Nat} (h : AOk F st)
    (he : asymAllN active st = some (st', true, n)) : st'.s.total + n ≤ st.s.total := by
  rw [asymAllN] at he
  split at he
  · exact asymListN_le _ st 0 st' n h he
  · simp only [Option.some.injEq, Prod.mk.injEq] at he
    obtain ⟨rfl, -, rfl⟩ := he
    exact Nat.le_refl _

/-! ### Elimination -/

/-- Variables that are not eliminated. -/
def VE.left (ve : VE) (n : Nat) : Nat := ((List.range n).filter fun v => !ve.isEliminated v).length

theorem filter_length_le {α : Type} {p q : α → Bool} : ∀ {xs : List α}, (∀ x ∈ xs, p x = true → q x = true) →
    (xs.filter p).length ≤ (xs.filter q).length
  | [], _ => Nat.le_refl _
  | x :: xs, h => by
    have ih := filter_length_le (xs := xs) (fun y hy => h y (by simp [hy]))
    have hx := h x (by simp)
    rw [List.filter_cons, List.filter_cons]
    cases hp : p x with
    | false => cases q x <;> simp <;> omega
    | true => rw [hx hp]; simp; exact ih

theorem filter_length_lt {α : Type} {p q : α → Bool} {a : α} : ∀ {xs : List α}, (∀ x ∈ xs, p x = true → q x = true) →
    a ∈ xs → q a = true → p a = false → (xs.filter p).length < (xs.filter q).length
  | x :: xs, h, ha, hq, hp => by
    have hx := h x (by simp)
    have hle := filter_length_le (xs := xs) (fun y hy => h y (by simp [hy]))
    rw [List.filter_cons, List.filter_cons]
    rcases List.mem_cons.1 ha with rfl | ha
    · rw [hq, hp]; simp; omega
    · have ih := filter_length_lt (xs := xs) (fun y hy => h y (by simp [hy])) ha hq hp
      cases hp' : p x with
      | false => cases q x <;> simp <;> omega
      | true => rw [hx hp']; simp; exact ih

theorem eliminateStepN_le {lim n m v : Nat} {st st' : VES} {b : Bool}
    (he : eliminateStepN lim st v n = some (st', b, m)) :
    (∀ w, st.ve.isEliminated w = true → st'.ve.isEliminated w = true) ∧
    ((m = n ∧ st' = st) ∨ (n < m ∧ st'.ve.isEliminated v = true)) := by
  have same : ∀ {b' : Bool}, some (st, b', n) = some (st', b, m) →
      (∀ w, st.ve.isEliminated w = true → st'.ve.isEliminated w = true) ∧
      ((m = n ∧ st' = st) ∨ (n < m ∧ st'.ve.isEliminated v = true)) := by
    intro b' e
    simp only [Option.some.injEq, Prod.mk.injEq] at e
    obtain ⟨rfl, -, rfl⟩ := e
    exact ⟨fun _ h => h, Or.inl ⟨rfl, rfl⟩⟩
  rw [eliminateStepN] at he
  split at he
  · split at he
    · simp at he
    · rename_i os _
      dsimp only at he
      generalize (os.filter fun x => decide ((⟨v, false⟩ : Lit) ∈ st.s.db.lits x.2)) = pos at he
      generalize (os.filter fun x => !decide ((⟨v, false⟩ : Lit) ∈ st.s.db.lits x.2)) = neg at he
      rw [eliminateVarN] at he
      split at he
      · exact same he
      · rename_i hne
        dsimp only at he
        split at he
        · exact same he
        · exact same he
        · split at he
          · simp at he
          · simp only [Option.some.injEq, Prod.mk.injEq] at he
            obtain ⟨rfl, -, rfl⟩ := he
            have hv : VE.isEliminated { st.ve with
                vars := st.ve.vars ++ [v]
                cls := upd st.ve.cls v (st.ve.cls v ++ neg.map (fun x => st.s.db.lits x.2) ++
                  pos.map (fun x => st.s.db.lits x.2)) } v = true := by
              simp only [VE.isEliminated, upd_same]
              rw [Bool.not_eq_true']
              rw [← Bool.not_eq_true, List.isEmpty_iff]
              intro hnil
              simp only [List.append_eq_nil_iff, List.map_eq_nil_iff] at hnil
              exact hne ⟨by rw [hnil.2]; rfl, by rw [hnil.1.2]; rfl⟩
            refine ⟨fun w hw => ?_, Or.inr ⟨by omega, hv⟩⟩
            by_cases hwv : w = v
            · subst hwv; exact hv
            · simp only [VE.isEliminated] at hw ⊢
              rw [upd_ne _ _ hwv]; exact hw
  · exact same he

theorem eliminateListN_le {lim : Nat} : ∀ (vs : List Nat) (st : VES) (n : Nat) (st' : VES) (b : Bool) (m : Nat),
    eliminateListN lim vs st n = some (st', b, m) →
    (∀ w, st.ve.isEliminated w = true → st'.ve.isEliminated w = true) ∧
    ((m = n ∧ st' = st) ∨ (n < m ∧ ∃ v ∈ vs, st'.ve.isEliminated v = true))
  | [], st, n, st', b, m, he => by
    simp only [eliminateListN, Option.some.injEq, Prod.mk.injEq] at he
    obtain ⟨rfl, -, rfl⟩ := he
    exact ⟨fun _ h => h, Or.inl ⟨rfl, rfl⟩⟩
  | v :: vs, st, n, st', b, m, he => by
    rw [eliminateListN] at he
    rcases e : eliminateStepN lim st v n with _ | ⟨st1, b1, m1⟩
    · rw [e] at he; simp at he
    rw [e] at he
    obtain ⟨h1, h2⟩ := eliminateStepN_le e
    cases b1 with
    | false =>
      simp only [Option.some.injEq, Prod.mk.injEq] at he
      obtain ⟨rfl, -, rfl⟩ := he
      exact ⟨h1, h2.imp (fun h => h) (fun h => ⟨h.1, v, by simp, h.2⟩)⟩
    | true =>
      simp only at he
      obtain ⟨h3, h4⟩ := eliminateListN_le vs st1 m1 st' b m he
      refine ⟨fun w hw => h3 w (h1 w hw), ?_⟩
      rcases h2 with ⟨rfl, rfl⟩ | ⟨k1, k2⟩
      · exact h4.imp (fun h => h) (fun ⟨a, w, b, c⟩ => ⟨a, w, by simp [b], c⟩)
      · refine Or.inr ⟨?_, v, by simp, h3 v k2⟩
        rcases h4 with h4 | h4
        · omega
        · omega

theorem eliminateAllN_le {active : Bool} {lim : Nat} {order : (Nat → Nat) → List Nat → List Nat} {st st' : VES} {b : Bool}
    {n : Nat} (hord : ∀ f xs, ∀ x ∈ order f xs, x ∈ xs) (he : eliminateAllN active lim order st = some (st', b, n)) :
    st'.ve.left st.T.nVars ≤ st.ve.left st.T.nVars ∧
    (n = 0 → st'.s = st.s) ∧ (0 < n → st'.ve.left st.T.nVars < st.ve.left st.T.nVars) := by
  rw [eliminateAllN] at he
  dsimp only at he
  split at he
  · obtain ⟨h1, h2⟩ := eliminateListN_le _ _ _ _ _ _ he
    have h1' : ∀ w, st.ve.isEliminated w = true → st'.ve.isEliminated w = true := h1
    have hp : ∀ w ∈ List.range st.T.nVars, (!st'.ve.isEliminated w) = true → (!st.ve.isEliminated w) = true := by
      intro w _ hw
      have := h1' w
      cases e : st.ve.isEliminated w with
      | false => rfl
      | true => rw [this e] at hw; simp at hw
    refine ⟨filter_length_le hp, ?_, ?_⟩
    · rintro rfl
      rcases h2 with ⟨-, rfl⟩ | h2
      · rfl
      · exact absurd h2.1 (Nat.lt_irrefl _)
    · intro hn
      rcases h2 with ⟨rfl, -⟩ | ⟨-, v, hv, hve⟩
      · exact absurd hn (Nat.lt_irrefl _)
      · have := hord _ _ v hv
        simp only [VE.candidates, List.mem_filter, Bool.and_eq_true] at this
        exact filter_length_lt hp this.1 this.2.2 (by rw [hve]; rfl)
  · simp only [Option.some.injEq, Prod.mk.injEq] at he
    obtain ⟨rfl, -, rfl⟩ := he
    exact ⟨Nat.le_refl _, fun _ => rfl, fun h => absurd h (Nat.lt_irrefl _)⟩

/-! ### One round -/

/-- The state after the reduction. -/
def Proc.putA (p : Proc) (st : AVS) : Proc :=
  { sys := { p.sys with sol := { p.sys.sol with db := st.s.db, watch := st.watch, trail := st.T } },
    obj := st.s.obj, occ := st.s.occ }

/-- The state after the elimination. -/
def Proc.putV (p : Proc) (st : VES) : Proc :=
  { sys := { sol := { p.sys.sol with db := st.s.db, trail := st.T }, ve := st.ve }, obj := st.s.obj, occ := st.s.occ }

theorem after_false (p : Proc) (c : Bool) : (p.after false c).sys.sol.db.hasEmpty = true := by
  unfold Proc.after Proc.setSdb
  cases c <;> rfl

theorem after_true_total (p : Proc) (c : Bool) : (p.after true c).sdb.total = p.sdb.total := by
  unfold Proc.after Proc.setSdb
  cases c <;> rfl

theorem after_ve (p : Proc) (b c : Bool) : (p.after b c).sys.ve = p.sys.ve := by
  unfold Proc.after Proc.setSdb
  cases b <;> cases c <;> rfl

theorem after_total (p : Proc) (b c : Bool) : (p.after b c).sdb.total = p.sdb.total := by
  unfold Proc.after Proc.setSdb
  cases b <;> cases c <;> rfl

theorem QInv.materialize_len {p q : Proc} (h : QInv F p) (he : p.materialize = some q) :
    q.sdb.total = p.sdb.total ∧ q.sys.ve = p.sys.ve := by
  obtain ⟨s, h1, h2, h3, h4, h5⟩ := h.inv.materialize
  unfold Proc.materialize at he
  rw [h1] at he
  simp at he; subst he
  refine ⟨?_, rfl⟩
  unfold SDB.total Proc.sdb
  rw [objLen_congr]
  intro i c hc
  have hm : c ∈ p.sys.sol.db.clauses := h.ok.obj i c hc
  have n1 : (p.sys.sol.db.lits c).Nodup := List.Pairwise.of_map Lit.var (fun a b hab e => hab (by rw [e]))
    (h.inv.db.nd c (h.inv.db.mem c hm))
  have n2 : (s.db.lits c).Nodup := List.Pairwise.of_map Lit.var (fun a b hab e => hab (by rw [e]))
    (h2.db.nd c (h2.db.mem c (h4 c hm)))
  exact ((List.perm_ext_iff_of_nodup n2 n1).2 (h5 c hm)).length_eq

/-- The measure of the loop gets smaller. -/
def Proc.Less (q p : Proc) : Prop :=
  q.sys.ve.left q.sys.sol.trail.nVars < p.sys.ve.left p.sys.sol.trail.nVars ∨
  (q.sys.ve.left q.sys.sol.trail.nVars = p.sys.ve.left p.sys.sol.trail.nVars ∧ q.sdb.total < p.sdb.total)

theorem QInv.roundN {p : Proc} (cfg : Config) {r : SimpRound} (h : QInv F p) (hord : ∀ f xs, ∀ x ∈ r.order f xs, x ∈ xs) :
    ∃ q on R, p.roundN cfg r = some (q, on) ∧ R.before = r.before ∧ R.order = r.order ∧
      p.round cfg R = some (q, on.isSome) ∧
      (p.sys.sol.db.hasEmpty = true → on = none) ∧
      ∀ n, on = some n → q.sys.sol.db.hasEmpty = true ∨ n = 0 ∨ q.Less p := by
  obtain ⟨p1, e1, v1⟩ := h.materialize_total
  obtain ⟨q1, g1⟩ := h.materialize e1
  obtain ⟨t1, -⟩ := h.materialize_len e1
  unfold Proc.roundN Proc.round
  simp only [e1]
  cases hE1 : p1.sys.sol.db.hasEmpty with
  | true => exact ⟨p1, none, ⟨0, r.before, r.order, false, false, false⟩, by simp, rfl, rfl, by simp, by simp, by simp⟩
  | false =>
    have hpe : p.sys.sol.db.hasEmpty = true → False := fun e => by rw [g1.hasEmpty e] at hE1; simp at hE1
    simp only [Bool.false_eq_true, if_false]
    -- subsumption
    obtain ⟨s1, b1, d1⟩ := subsumeAll_total (before := r.before) (fuel := p1.sdb.total + 1) q1.ok hE1 (by omega)
    obtain ⟨n1, d2⟩ := drop3_some ((subsumeAllN_drop (before := r.before) (fuel := p1.sdb.total + 1) p1.sdb).trans d1)
    have d3 : b1 = true → s1.total + n1 ≤ p1.sdb.total := by
      rintro rfl
      exact subsumeAllN_le q1.ok hE1 (by omega) d2
    have e2 : p1.subsumeN r = some ((p1.setSdb s1).after b1 (decide (0 < n1)), n1) := by
      simp only [Proc.subsumeN, d2, Option.map_some]
    have e2' : ∀ c2 c3, p1.subsume ⟨p1.sdb.total + 1, r.before, r.order, decide (0 < n1), c2, c3⟩ =
        some ((p1.setSdb s1).after b1 (decide (0 < n1))) := by
      intro c2 c3
      simp only [Proc.subsume, d1, Option.map_some]
    obtain ⟨q2, g2⟩ := q1.subsume (e2' false false)
    have v2 : ((p1.setSdb s1).after b1 (decide (0 < n1))).sys.ve = p1.sys.ve := by rw [after_ve]; rfl
    have t2 : ((p1.setSdb s1).after b1 (decide (0 < n1))).sdb.total = s1.total := by rw [after_total]; rfl
    have f2 : b1 = false → ((p1.setSdb s1).after b1 (decide (0 < n1))).sys.sol.db.hasEmpty = true := by
      rintro rfl; exact after_false _ _
    generalize hp2 : (p1.setSdb s1).after b1 (decide (0 < n1)) = p2 at *
    obtain ⟨p3, e3, v3⟩ := q2.materialize_total
    obtain ⟨q3, g3⟩ := q2.materialize e3
    obtain ⟨t3, -⟩ := q2.materialize_len e3
    simp only [e2, e3]
    cases hE3 : p3.sys.sol.db.hasEmpty with
    | true =>
      exact ⟨p3, none, ⟨p1.sdb.total + 1, r.before, r.order, decide (0 < n1), false, false⟩, by simp, rfl, rfl,
        by simp [e2' false false, e3, hE3], fun _ => rfl, by simp⟩
    | false =>
      have hb1 : b1 = true := by
        cases b1 with
        | true => rfl
        | false => rw [g3.hasEmpty (f2 rfl)] at hE3; simp at hE3
      simp only [Bool.false_eq_true, if_false]
      -- reduction
      have hl := q3.inv.l0 hE3
      have hA : AOk F ⟨p3.sdb, p3.sys.sol.watch, p3.sys.sol.trail⟩ := ⟨q3.ok, hl.core, hl.watch, hl.lim⟩
      obtain ⟨st, b2, k1⟩ := asymAll_total (active := cfg.useAsymm) hA
      obtain ⟨n2, k2⟩ := drop3_some ((asymAllN_drop (active := cfg.useAsymm) _).trans k1)
      have k3 : b2 = true → st.s.total + n2 ≤ p3.sdb.total := by
        rintro rfl
        exact asymAllN_le hA k2
      have e4 : p3.reduceN cfg = some ((p3.putA st).after b2 (decide (0 < n2)), n2) := by
        simp only [Proc.reduceN, k2, Option.map_some]; rfl
      have e4' : ∀ c3, p3.reduce cfg ⟨p1.sdb.total + 1, r.before, r.order, decide (0 < n1), decide (0 < n2), c3⟩ =
          some ((p3.putA st).after b2 (decide (0 < n2))) := by
        intro c3
        simp only [Proc.reduce, k1, Option.map_some]; rfl
      obtain ⟨q4, g4⟩ := q3.reduce hE3 (e4' false)
      have v4 : ((p3.putA st).after b2 (decide (0 < n2))).sys.ve = p3.sys.ve := by rw [after_ve]; rfl
      have t4 : ((p3.putA st).after b2 (decide (0 < n2))).sdb.total = st.s.total := by
        rw [after_total]; rfl
      have f4 : b2 = false → ((p3.putA st).after b2 (decide (0 < n2))).sys.sol.db.hasEmpty = true := by
        rintro rfl; exact after_false _ _
      generalize hp4 : (p3.putA st).after b2 (decide (0 < n2)) = p4 at *
      obtain ⟨p5, e5, v5⟩ := q4.materialize_total
      obtain ⟨q5, g5⟩ := q4.materialize e5
      obtain ⟨t5, -⟩ := q4.materialize_len e5
      simp only [e4, e5]
      cases hE5 : p5.sys.sol.db.hasEmpty with
      | true =>
        exact ⟨p5, none, ⟨p1.sdb.total + 1, r.before, r.order, decide (0 < n1), decide (0 < n2), false⟩, by simp, rfl, rfl,
          by simp [e2' _ _, e3, hE3, e4' _, e5, hE5], fun _ => rfl, by simp⟩
      | false =>
        have hb2 : b2 = true := by
          cases b2 with
          | true => rfl
          | false => rw [g5.hasEmpty (f4 rfl)] at hE5; simp at hE5
        simp only [Bool.false_eq_true, if_false]
        -- elimination
        obtain ⟨sv, b3, m1, -⟩ := eliminateAll_total (active := cfg.useElim) (lim := cfg.clauseLim)
          (order := r.order) (st := ⟨p5.sdb, p5.sys.ve, p5.sys.sol.trail⟩) (F := F) q5.ok q5.inv.ve
        obtain ⟨n3, m2⟩ := drop3_some ((eliminateAllN_drop (active := cfg.useElim) (lim := cfg.clauseLim)
          (order := r.order) _).trans m1)
        obtain ⟨m3, m4, m5⟩ := eliminateAllN_le hord m2
        have e6 : p5.eliminateN cfg r = some ((p5.putV sv).after b3 (decide (0 < n3)), n3) := by
          simp only [Proc.eliminateN, m2, Option.map_some]; rfl
        have e6' : p5.eliminate cfg ⟨p1.sdb.total + 1, r.before, r.order, decide (0 < n1), decide (0 < n2), decide (0 < n3)⟩ =
            some ((p5.putV sv).after b3 (decide (0 < n3))) := by
          simp only [Proc.eliminate, m1, Option.map_some]; rfl
        obtain ⟨q6, g6⟩ := q5.eliminate e6'
        refine ⟨_, some (n1 + n3 + n2), ⟨p1.sdb.total + 1, r.before, r.order, decide (0 < n1), decide (0 < n2), decide (0 < n3)⟩,
          by rw [e6]; rfl, rfl, rfl, by simp [e2' _ _, e3, hE3, e4' _, e5, hE5, e6'], fun h => (hpe h).elim, ?_⟩
        intro n hn
        simp only [Option.some.injEq] at hn
        subst hn
        right
        by_cases hz : n1 + n3 + n2 = 0
        · exact Or.inl hz
        right
        have hnv := (((((g1.trans g2).trans g3).trans g4).trans g5).trans g6).tnVars
        have hnv5 := ((((g1.trans g2).trans g3).trans g4).trans g5).tnVars
        have hve : p5.sys.ve = p.sys.ve := by rw [v5, v4, v3, v2, v1]
        unfold Proc.Less
        rw [hnv, after_ve, after_total]
        simp only at m3 m5 ⊢
        rw [hnv5, hve] at m3 m5
        by_cases h3 : 0 < n3
        · exact Or.inl (m5 h3)
        · rcases Nat.lt_or_eq_of_le m3 with hlt | heq
          · exact Or.inl hlt
          · refine Or.inr ⟨heq, ?_⟩
            have hs : sv.s = p5.sdb := m4 (by omega)
            have : (p5.putV sv).sdb = sv.s := rfl
            rw [this, hs]
            have := d3 hb1
            have := k3 hb2
            omega

/-! ### The loop -/

/-- The loop has an end from `p`, and does the rounds `Rs` until then. -/
def Proc.Ends (cfg : Config) (term : Nat → Bool) (rs : Nat → SimpRound) (k num max : Nat) (p : Proc) : Prop :=
  ∃ N q Rs, (∀ f, N ≤ f → Proc.loopN cfg term rs f k num max p = some q) ∧
    Proc.rounds cfg Rs p = some q ∧ Rs.length ≤ N ∧
    ∀ R ∈ Rs, ∃ i, R.before = (rs i).before ∧ R.order = (rs i).order

theorem Proc.Ends.stop {cfg : Config} {term : Nat → Bool} {rs : Nat → SimpRound} {k num max : Nat} {p : Proc}
    (h : ¬(max < 10 * num ∧ term k = false)) : p.Ends cfg term rs k num max := by
  refine ⟨1, p, [], fun f hf => ?_, rfl, by simp, by simp⟩
  obtain ⟨f, rfl⟩ : ∃ g, f = g + 1 := ⟨f - 1, by omega⟩
  simp only [Proc.loopN, if_neg h]

theorem Proc.Ends.zero {cfg : Config} {term : Nat → Bool} {rs : Nat → SimpRound} {k max : Nat} {p : Proc} :
    p.Ends cfg term rs k 0 max := .stop (by omega)

/-- One more round. -/
theorem QInv.ends_step {p : Proc} {cfg : Config} {term : Nat → Bool} {rs : Nat → SimpRound} {k num max : Nat}
    (h : QInv F p) (hord : ∀ i f xs, ∀ x ∈ (rs i).order f xs, x ∈ xs)
    (next : ∀ q, QInv F q → p.sys.sol.db.hasEmpty = false → q.sys.sol.db.hasEmpty = true ∨ q.Less p →
      ∀ k num max, q.Ends cfg term rs k num max) :
    p.Ends cfg term rs k num max := by
  rcases Classical.em (max < 10 * num ∧ term k = false) with hc | hc
  rotate_left
  · exact .stop hc
  obtain ⟨q, on, R, e, hb, ho, er, hE, hn⟩ := h.roundN cfg (r := rs k) (hord k)
  have hq : QInv F q := (h.round er).1
  cases on with
  | none =>
    refine ⟨1, q, [R], fun f hf => ?_, ?_, by simp, ?_⟩
    · obtain ⟨f, rfl⟩ : ∃ g, f = g + 1 := ⟨f - 1, by omega⟩
      simp only [Proc.loopN, if_pos hc, e]
    · simp only [Option.isSome_none] at er
      simp only [Proc.rounds, er]
    · intro R' hR'
      simp only [List.mem_singleton] at hR'
      subst hR'
      exact ⟨k, hb, ho⟩
  | some n =>
    have hpe : p.sys.sol.db.hasEmpty = false := by
      cases hp : p.sys.sol.db.hasEmpty with
      | false => rfl
      | true => exact absurd (hE hp) (by simp)
    have : q.Ends cfg term rs (k + 1) n (Nat.max n max) := by
      rcases hn n rfl with h1 | rfl | h1
      · exact next q hq hpe (Or.inl h1) _ _ _
      · exact .zero
      · exact next q hq hpe (Or.inr h1) _ _ _
    obtain ⟨N, q', Rs, a1, a2, a3, a4⟩ := this
    refine ⟨N + 1, q', R :: Rs, fun f hf => ?_, ?_, by simpa using a3, ?_⟩
    · obtain ⟨f, rfl⟩ : ∃ g, f = g + 1 := ⟨f - 1, by omega⟩
      simp only [Proc.loopN, if_pos hc, e]
      exact a1 f (by omega)
    · simp only [Option.isSome_some] at er
      simp only [Proc.rounds, er]
      exact a2
    · intro R' hR'
      rcases List.mem_cons.1 hR' with rfl | hR'
      · exact ⟨k, hb, ho⟩
      · exact a4 R' hR'

theorem QInv.ends {cfg : Config} {term : Nat → Bool} {rs : Nat → SimpRound}
    (hord : ∀ i f xs, ∀ x ∈ (rs i).order f xs, x ∈ xs) :
    ∀ {p : Proc}, QInv F p → ∀ k num max, p.Ends cfg term rs k num max := by
  have empty : ∀ {p : Proc}, QInv F p → p.sys.sol.db.hasEmpty = true → ∀ k num max, p.Ends cfg term rs k num max :=
    fun h he _ _ _ => h.ends_step hord (fun q _ hf => by rw [he] at hf; simp at hf)
  have main : ∀ L, ∀ T, ∀ {p : Proc}, QInv F p → p.sys.ve.left p.sys.sol.trail.nVars = L → p.sdb.total = T →
      ∀ k num max, p.Ends cfg term rs k num max := by
    intro L
    induction L using Nat.strongRecOn with
    | _ L ihL =>
      intro T
      induction T using Nat.strongRecOn with
      | _ T ihT =>
        intro p h hL hT k num max
        refine h.ends_step hord (fun q hq _ hor => ?_)
        rcases hor with he | hlt | ⟨heq, hlt⟩
        · exact empty hq he
        · exact ihL _ (by omega) _ hq rfl rfl
        · exact ihT _ (by omega) hq (by omega) rfl
  exact fun {_} h => main _ _ h rfl rfl

/-- `processClauseDatabase` ends, and is a `process` of finitely many rounds. -/
theorem PInv.processLoop_ends {sys : Sys} (cfg : Config) (term : Nat → Bool) (rs : Nat → SimpRound)
    (hord : ∀ i f xs, ∀ x ∈ (rs i).order f xs, x ∈ xs) (h : PInv F sys) :
    ∃ N sys' Rs, (∀ f, N ≤ f → processLoop cfg term rs f sys = some sys') ∧
      Candy.process cfg Rs sys = some sys' ∧ Rs.length ≤ N ∧
      ∀ R ∈ Rs, ∃ i, R.before = (rs i).before ∧ R.order = (rs i).order := by
  have hok : SOk F (SDB.init sys.sol.db) := SOk.init h.db
  have hq : QInv F ⟨sys, (SDB.init sys.sol.db).obj, (SDB.init sys.sol.db).occ⟩ := by
    refine ⟨h, ?_⟩
    have e : (SDB.init sys.sol.db) = ⟨sys.sol.db, (SDB.init sys.sol.db).obj,
      (SDB.init sys.sol.db).occ⟩ := by
      conv => lhs; rw [show SDB.init sys.sol.db = ⟨(SDB.init sys.sol.db).db,
        (SDB.init sys.sol.db).obj, (SDB.init sys.sol.db).occ⟩ from rfl, init_db]
    rw [e] at hok; exact hok
  obtain ⟨N, q, Rs, a1, a2, a3, a4⟩ := hq.ends hord (cfg := cfg) (term := term) 0 1 0
  exact ⟨N, q.sys, Rs, fun f hf => by unfold processLoop; simp only [a1 f hf, Option.map_some],
    by unfold Candy.process; simp only [a2, Option.map_some], a3, a4⟩

/-! ### `solve` with the loops -/

/-- What a round of `solve` with its loops has in common with the same round with the list of its simplification rounds. -/
structure RoundL.Like (r : RoundL) (r' : Round) : Prop where
  trigger : r'.trigger = r.trigger
  inprocess : r'.inprocess.isSome = r.inprocess.isSome
  sort : r'.sort = r.sort
  choice : r'.choice = r.choice
  rounds : ∀ Rs i, r'.inprocess = some Rs → r.inprocess = some i →
    ∀ R ∈ Rs, ∃ k, R.before = (i.rounds k).before ∧ R.order = (i.rounds k).order

theorem RoundL.Like.valid {r : RoundL} {r' : Round} (h : r.Like r') (hr : r.Valid) : r'.Valid :=
  ⟨by rw [h.choice]; exact hr.choice, by rw [h.sort]; exact hr.sort⟩

theorem PInv.reduceStepL_ends {sys : Sys} (cfg : Config) {r : RoundL} (hr : r.Valid) (h : PInv F sys) :
    ∃ N sys' r', (∀ f, N ≤ f → reduceStepL cfg f r sys = some sys') ∧ r.Like r' ∧
      ∀ n, Candy.reduceStep cfg { r' with steps := n } sys = some sys' := by
  obtain ⟨tr, inp, sort, choice⟩ := r
  cases tr with
  | false =>
    refine ⟨0, sys, ⟨false, inp.map fun _ => [], sort, 0, choice⟩, fun _ _ => rfl, ⟨rfl, ?_, rfl, rfl, ?_⟩, fun n => rfl⟩
    · cases inp <;> rfl
    · rintro Rs i h1 (h2 : inp = some i)
      subst h2
      simp only [Option.map_some, Option.some.injEq] at h1
      subst h1
      simp
  | true =>
    cases inp with
    | none =>
      exact ⟨0, _, ⟨true, none, sort, 0, choice⟩, fun _ _ => rfl, ⟨rfl, rfl, rfl, rfl, by simp⟩, fun n => rfl⟩
    | some i =>
      obtain ⟨N, sys1, Rs, a1, a2, -, a4⟩ := h.processLoop_ends cfg i.term i.rounds (hr.inprocess i rfl)
      refine ⟨N, { sys1 with sol := { sys1.sol with db := sys1.sol.db.reorganize, watch := resetWatch sys1.sol.db.reorganize } },
        ⟨true, some Rs, sort, 0, choice⟩, fun f hf => ?_, ⟨rfl, rfl, rfl, rfl, ?_⟩, fun n => ?_⟩
      · simp only [reduceStepL, if_true, a1 f hf, Option.map_some]
      · rintro Rs' i' h1 h2
        simp only [Option.some.injEq] at h1 h2
        subst h1 h2
        exact a4
      · simp only [Candy.reduceStep, if_true, a2, Option.map_some]

theorem RoundInv.roundL_ends {sys : Sys} (cfg : Config) {r : RoundL} (hr : r.Valid) (h : RoundInv F sys)
    (hb : ∀ l ∈ sys.sol.trail.assumptions, l.var < sys.sol.db.nVars) :
    ∃ N x r', (∀ f, N ≤ f → solveRoundL cfg f r sys = some x) ∧ r.Like r' ∧ solveRound cfg r' sys = some x ∧
      ((∀ i, (r.choice i).restart = false) → x.2 ≠ none) := by
  obtain ⟨N, sys1, r', e, hl, e'⟩ := h.reset.reduceStepL_ends cfg hr
  have hl' : ∀ n, r.Like { r' with steps := n } := fun n => ⟨hl.trigger, hl.inprocess, hl.sort, hl.choice, hl.rounds⟩
  obtain ⟨a1, a2⟩ := h.reset.reduceStep (r := { r' with steps := 0 }) ((hl' 0).valid hr).sort (e' 0)
  obtain ⟨s, m1, m2, m3, -⟩ := a1.materialize
  have hf := a2.trans m3
  have hnv : s.db.nVars = sys.sol.db.nVars := hf.nVars
  have has : s.trail.assumptions = sys.sol.trail.assumptions := hf.assumptions
  cases hE : s.db.hasEmpty with
  | true =>
    refine ⟨N, ({ sys1 with sol := s }, some false), { r' with steps := 0 }, fun f hf => ?_, hl' 0, ?_, by simp⟩
    · unfold solveRoundL
      simp only [e f hf, m1, hE, if_true]
    · unfold solveRound
      simp only [e' 0, m1, hE, if_true]
  | false =>
    have hS : SInv F (fun _ => False) s := m2.sinv hE (by
      intro l hl
      simp only at hl ⊢
      rw [has] at hl; rw [hnv]; exact hb l hl)
    obtain ⟨s', b, e2, e3⟩ := search_terminates (s.db.nVars * (s.db.nVars + 1) ^ (s.db.nVars + 1) + 1)
      r.choice s _ hS hr.choice (by omega)
    refine ⟨max N (s.db.nVars * (s.db.nVars + 1) ^ (s.db.nVars + 1) + 1),
      ({ sys1 with sol := s' }, b), { r' with steps := s.db.nVars * (s.db.nVars + 1) ^ (s.db.nVars + 1) + 1 },
      fun f hf => ?_, hl' _, ?_, e3⟩
    · unfold solveRoundL
      simp only [e f (by omega), m1, hE]
      have := search_mono _ f r.choice s _ (by omega) e2
      simp only [this, Option.map_some, Bool.false_eq_true, if_false]
    · unfold solveRound
      have e2' := e2
      rw [← hl.choice] at e2'
      simp only [e' _, m1, hE, Bool.false_eq_true, if_false]
      rw [e2']
      rfl

theorem RoundInv.loopL_ends (cfg : Config) : ∀ (rs : List RoundL) (sys : Sys), RoundInv F sys →
    (∀ r ∈ rs, r.Valid) → (∀ l ∈ sys.sol.trail.assumptions, l.var < sys.sol.db.nVars) →
    sys.sol.conflict = [] →
    ∃ N x rs', (∀ f, N ≤ f → solveLoopL cfg f rs sys = some x) ∧ solveLoop cfg rs' sys = some x ∧
      (∀ r' ∈ rs', ∃ r ∈ rs, r.Like r') ∧
      ((∃ r ∈ rs, ∀ i, (r.choice i).restart = false) → x.2 ≠ none)
  | [], sys, _, _, _, _ => ⟨0, (sys, none), [], fun _ _ => rfl, rfl, by simp, by simp⟩
  | r :: rs, sys, h, hr, hb, hcf => by
    obtain ⟨N, ⟨sys1, b⟩, r', e, hl, e', w⟩ := h.roundL_ends cfg (hr r (by simp)) hb
    obtain ⟨a1, a2, a3, a4, a5, a6, _⟩ := solveRound_spec h (hl.valid (hr r (by simp))) hb hcf e'
    cases b with
    | some b =>
      refine ⟨N, (sys1, some b), [r'], fun f hf => ?_, ?_, ?_, by simp⟩
      · rw [solveLoopL, e f hf]
      · rw [solveLoop, e']
      · intro q hq
        simp only [List.mem_singleton] at hq
        subst hq
        exact ⟨r, by simp, hl⟩
    | none =>
      obtain ⟨a6, a7⟩ := a6 (by simp)
      obtain ⟨N2, x, rs', e2, e2', hl2, w2⟩ := RoundInv.loopL_ends cfg rs sys1 ⟨a1, a2, a3, a7⟩
        (fun q hq => hr q (by simp [hq])) (by rw [a5, a4]; exact hb) a6
      refine ⟨max N N2, x, r' :: rs', fun f hf => ?_, ?_, ?_, ?_⟩
      · rw [solveLoopL, e f (by omega)]
        exact e2 f (by omega)
      · rw [solveLoop, e']
        exact e2'
      · intro q hq
        rcases List.mem_cons.1 hq with rfl | hq
        · exact ⟨r, by simp, hl⟩
        · obtain ⟨r0, k1, k2⟩ := hl2 q hq
          exact ⟨r0, by simp [k1], k2⟩
      · rintro ⟨q, hq, hqr⟩
        rcases List.mem_cons.1 hq with rfl | hq
        · exact (w hqr rfl).elim
        · exact w2 ⟨q, hq, hqr⟩

theorem solveL_ends {sys : Sys} (h : SysOk F sys) (hve : VENe sys.ve) (cfg : Config)
    (pre : SimpInput) (hp : pre.Valid) (rounds : List RoundL) (hr : ∀ r ∈ rounds, r.Valid)
    (hb : ∀ l ∈ sys.sol.trail.assumptions, l.var < sys.sol.db.nVars) :
    ∃ N x Rs rs', (∀ f, N ≤ f → solveL cfg f pre rounds sys = some x) ∧ solve cfg Rs rs' sys = some x ∧
      (∀ R ∈ Rs, ∃ k, R.before = (pre.rounds k).before ∧ R.order = (pre.rounds k).order) ∧
      (∀ r' ∈ rs', ∃ r ∈ rounds, r.Like r') ∧
      ((∃ r ∈ rounds, ∀ i, (r.choice i).restart = false) → x.2.status ≠ none) := by
  obtain ⟨p1, p2, p3, p4, p5⟩ := solveStart_spec h
  have hv0 := hve.solveStart
  have key : ∃ N sys1 Rs, (∀ f, N ≤ f → solveEntryL cfg f pre sys = some sys1) ∧ solveEntry cfg Rs sys = some sys1 ∧
      (∀ R ∈ Rs, ∃ k, R.before = (pre.rounds k).before ∧ R.order = (pre.rounds k).order) ∧ VENe sys1.ve := by
    unfold solveEntry solveEntryL
    dsimp only
    cases cfg.preprocessing with
    | false => exact ⟨0, _, [], fun _ _ => rfl, rfl, by simp, hv0⟩
    | true =>
      obtain ⟨N, sys1, Rs, e1, e2, -, e4⟩ := p1.processLoop_ends cfg pre.term pre.rounds hp
      refine ⟨N, { sys1 with sol := { sys1.sol with watch := resetWatch sys1.sol.db } }, Rs,
        fun f hf => by simp only [if_true, e1 f hf, Option.map_some], ?_, e4, ?_⟩
      · simp only [if_true, e2, Option.map_some]
      · show VENe sys1.ve
        exact p1.process_ve e2 hv0
  obtain ⟨N, sys1, Rs, e, e', hRs, v⟩ := key
  obtain ⟨k1, k2, k3, k4⟩ := solveEntry_spec h e'
  have key2 : ∃ M x rs', (∀ f, M ≤ f → (if sys1.sol.db.hasEmpty then some (sys1, some false)
      else solveLoopL cfg f rounds sys1) = some x) ∧ (if sys1.sol.db.hasEmpty then some (sys1, some false)
      else solveLoop cfg rs' sys1) = some x ∧ VENe x.1.ve ∧ (∀ r' ∈ rs', ∃ r ∈ rounds, r.Like r') ∧
      ((∃ r ∈ rounds, ∀ i, (r.choice i).restart = false) → x.2 ≠ none) := by
    cases hE : sys1.sol.db.hasEmpty with
    | true => exact ⟨0, (sys1, some false), [], fun _ _ => by simp, by simp, v, by simp, by simp⟩
    | false =>
      obtain ⟨M, x, rs', e2, e2', hl, w2⟩ := k1.loopL_ends cfg rounds sys1 hr (by rw [k3, k2]; exact hb) k4
      have hval : ∀ r' ∈ rs', r'.Valid := by
        intro r' h'
        obtain ⟨r, h1, h2⟩ := hl r' h'
        exact h2.valid (hr r h1)
      exact ⟨M, x, rs', fun f hf => by simpa using e2 f hf, by simpa using e2',
        solveLoop_ve rs' sys1 k1 hval (by rw [k3, k2]; exact hb) k4 v x.1 x.2 e2', hl, w2⟩
  obtain ⟨M, ⟨sys2, st⟩, rs', e2, e2', v2, hl, w2⟩ := key2
  have key3 : ∃ y, solveEnd sys2 st = some y ∧ y.2.status = st := by
    unfold solveEnd
    split
    · exact ⟨_, rfl, rfl⟩
    · exact ⟨_, rfl, rfl⟩
    · obtain ⟨T, eT⟩ := extendModel_total sys2.ve.vars.reverse sys2.sol.trail (cls := sys2.ve.cls)
        (fun w hw => v2 w (by simpa using hw))
      rw [eT]
      exact ⟨_, rfl, rfl⟩
  obtain ⟨y, e3, w3⟩ := key3
  refine ⟨max N M, y, Rs, rs', fun f hf => ?_, ?_, hRs, hl, fun hh => by rw [w3]; exact w2 hh⟩
  · rw [solveL, e f (by omega)]
    simp only [Option.bind_some]
    rw [e2 f (by omega)]
    exact e3
  · rw [solve_eq, e']
    simp only [Option.bind_some]
    rw [e2']
    exact e3

/-! ### More fuel -/

theorem loopN_mono {cfg : Config} {term : Nat → Bool} {rs : Nat → SimpRound} : ∀ (f f' k num max : Nat) (p q : Proc),
    f ≤ f' → Proc.loopN cfg term rs f k num max p = some q → Proc.loopN cfg term rs f' k num max p = some q
  | 0, _, _, _, _, _, _, _, h => by simp [Proc.loopN] at h
  | f + 1, 0, _, _, _, _, _, hf, _ => by omega
  | f + 1, f' + 1, k, num, max, p, q, hf, h => by
    rw [Proc.loopN] at h ⊢
    split at h
    · rename_i hc
      rw [if_pos hc]
      split at h
      · simp at h
      · exact h
      · exact loopN_mono f f' _ _ _ _ q (by omega) h
    · rename_i hc
      rw [if_neg hc]
      exact h

theorem processLoop_mono {cfg : Config} {term : Nat → Bool} {rs : Nat → SimpRound} {f f' : Nat} {sys sys' : Sys}
    (hf : f ≤ f') (h : processLoop cfg term rs f sys = some sys') : processLoop cfg term rs f' sys = some sys' := by
  unfold processLoop at h ⊢
  obtain ⟨p, hp, rfl⟩ := Option.map_eq_some_iff.1 h
  simp only [loopN_mono f f' _ _ _ _ p hf hp, Option.map_some]

theorem reduceStepL_mono {cfg : Config} {r : RoundL} {f f' : Nat} {sys sys' : Sys}
    (hf : f ≤ f') (h : reduceStepL cfg f r sys = some sys') : reduceStepL cfg f' r sys = some sys' := by
  obtain ⟨tr, inp, sort, choice⟩ := r
  cases tr with
  | false => exact h
  | true =>
    cases inp with
    | none => exact h
    | some i =>
      simp only [reduceStepL, if_true] at h ⊢
      obtain ⟨s, hs, e⟩ := Option.map_eq_some_iff.1 h
      rw [processLoop_mono hf hs]
      exact congrArg some e

theorem solveRoundL_mono {cfg : Config} {r : RoundL} {f f' : Nat} {sys : Sys} {x : Sys × Option Bool}
    (hf : f ≤ f') (h : solveRoundL cfg f r sys = some x) : solveRoundL cfg f' r sys = some x := by
  unfold solveRoundL at h ⊢
  dsimp only at h ⊢
  split at h
  · simp at h
  · rename_i s1 e1
    rw [reduceStepL_mono hf e1]
    split at h
    · simp at h
    · rename_i s2 e2
      simp only [e2]
      split at h
      · rename_i hE
        rw [if_pos hE]
        exact h
      · rename_i hE
        rw [if_neg hE]
        obtain ⟨y, hy, e⟩ := Option.map_eq_some_iff.1 h
        rw [search_mono f f' _ _ y hf hy]
        exact congrArg some e

theorem solveLoopL_mono {cfg : Config} {f f' : Nat} (hf : f ≤ f') : ∀ (rs : List RoundL) (sys : Sys)
    (x : Sys × Option Bool), solveLoopL cfg f rs sys = some x → solveLoopL cfg f' rs sys = some x
  | [], _, _, h => h
  | r :: rs, sys, x, h => by
    rw [solveLoopL] at h ⊢
    split at h
    · simp at h
    · rename_i s1 e1
      rw [solveRoundL_mono hf e1]
      exact solveLoopL_mono hf rs _ x h
    · rename_i s1 b e1
      rw [solveRoundL_mono hf e1]
      exact h

theorem solveL_mono {cfg : Config} {f f' : Nat} {pre : SimpInput} {rounds : List RoundL} {sys : Sys} {x : Sys × Result}
    (hf : f ≤ f') (h : solveL cfg f pre rounds sys = some x) : solveL cfg f' pre rounds sys = some x := by
  unfold solveL at h ⊢
  obtain ⟨s1, e1, h⟩ := Option.bind_eq_some_iff.1 h
  obtain ⟨y, e2, h⟩ := Option.bind_eq_some_iff.1 h
  have e1' : solveEntryL cfg f' pre sys = some s1 := by
    unfold solveEntryL at e1 ⊢
    dsimp only at e1 ⊢
    split at e1
    · rename_i hp
      rw [if_pos hp]
      obtain ⟨s, hs, e⟩ := Option.map_eq_some_iff.1 e1
      rw [processLoop_mono hf hs]
      exact congrArg some e
    · rename_i hp
      rw [if_neg hp]
      exact e1
  rw [e1', Option.bind_some]
  have e2' : (if s1.sol.db.hasEmpty then some (s1, some false) else solveLoopL cfg f' rounds s1) = some y := by
    split at e2
    · rename_i hE
      rw [if_pos hE]
      exact e2
    · rename_i hE
      rw [if_neg hE]
      exact solveLoopL_mono hf rounds s1 y e2
  rw [e2', Option.bind_some]
  exact h

/-- Every defined call is one of `solve`. -/
theorem solveL_solve {sys : Sys} (h : SysOk F sys) (hve : VENe sys.ve) {cfg : Config} {f : Nat}
    {pre : SimpInput} (hp : pre.Valid) {rounds : List RoundL} (hr : ∀ r ∈ rounds, r.Valid)
    (hb : ∀ l ∈ sys.sol.trail.assumptions, l.var < sys.sol.db.nVars) {x : Sys × Result}
    (hs : solveL cfg f pre rounds sys = some x) :
    ∃ Rs rs', solve cfg Rs rs' sys = some x ∧
      (∀ R ∈ Rs, ∃ k, R.before = (pre.rounds k).before ∧ R.order = (pre.rounds k).order) ∧
      (∀ r' ∈ rs', ∃ r ∈ rounds, r.Like r') := by
  obtain ⟨N, y, Rs, rs', h1, h2, h3, h4, -⟩ := solveL_ends h hve cfg pre hp rounds hr hb
  have e := (solveL_mono (Nat.le_max_left f N) hs).symm.trans (h1 (max f N) (Nat.le_max_right _ _))
  simp only [Option.some.injEq] at e
  exact ⟨Rs, rs', by rw [e]; exact h2, h3, h4⟩

end Candy
