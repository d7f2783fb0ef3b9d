import Verif.Proofs.ArraySimplify
import Verif.Proofs.Simplify

/-! Lemmas for C49: subsumption on arrays. -/

namespace Candy

theorem removeClause_nVars' (db : DB) (c : Nat) : (db.removeClause c).nVars = db.nVars := by
  unfold DB.removeClause; dsimp only; split <;> rfl

theorem SDB.remove_nVars {s s' : SDB} {i : Nat} (h : s.remove i = some s') : s'.db.nVars = s.db.nVars := by
  unfold SDB.remove at h
  split at h
  · simp only [Option.some.injEq] at h; subst h; exact removeClause_nVars' _ _
  · simp at h

theorem SDB.strengthen_nVars {s s' : SDB} {i : Nat} {l : Lit} (h : s.strengthen i l = some s') :
    s'.db.nVars = s.db.nVars := by
  unfold SDB.strengthen at h
  split at h
  · simp only [Option.some.injEq] at h; subst h
    unfold DB.strengthenClause
    dsimp only
    rw [removeClause_nVars']
    simp
  · simp at h

theorem SDB.create_nVars (s : SDB) (ls : List Lit) (lbd : Nat) : (s.create ls lbd).db.nVars = s.db.nVars := by
  show (s.db.createClause ls lbd).1.nVars = _
  simp

theorem aSubsumeScan_sim {before : Nat → Nat → Bool} {start : Nat} : ∀ (os : List Nat) {a : ASDB} {s : SDB} {cur : Nat},
    RepO a s → ∀ {s' : SDB} {out : ScanOut}, subsumeScan before start os s cur = some (s', out) →
    ∃ a', aSubsumeScan before start os a cur = some (a', out) ∧ RepO a' s' ∧ s'.db.nVars = s.db.nVars
  | [], a, s, cur, h, s', out, he => by
    simp only [subsumeScan, Option.some.injEq, Prod.mk.injEq] at he
    obtain ⟨rfl, rfl⟩ := he
    exact ⟨a, rfl, h, rfl⟩
  | o :: os, a, s, cur, h, s', out, he => by
    rw [subsumeScan] at he
    rw [aSubsumeScan, h.obj]
    cases ho : s.obj[o]? with
    | none => rw [ho] at he; simp at he
    | some x =>
      rw [ho] at he
      cases x with
      | none => exact aSubsumeScan_sim os h he
      | some oc =>
        dsimp only at he ⊢
        by_cases hoc : o = cur
        · rw [if_pos hoc] at he ⊢
          exact aSubsumeScan_sim os h he
        · rw [if_neg hoc] at he ⊢
          cases hcu : s.obj[cur]? with
          | none => rw [hcu] at he; simp at he
          | some y =>
            rw [hcu] at he
            cases y with
            | none => simp at he
            | some cc =>
              dsimp only at he ⊢
              have hcl := h.objLt _ _ hcu
              have hol := h.objLt _ _ ho
              rw [h.store.get cc hcl, h.store.get oc hol]
              dsimp only
              have hrm : ∀ {s2 : SDB} (cur' : Nat), (s.remove o = some s2) →
                  subsumeScan before start os s2 cur' = some (s', out) →
                  ∃ a', (match a.remove o with
                    | none => none
                    | some a => aSubsumeScan before start os a cur') = some (a', out) ∧ RepO a' s' ∧
                    s'.db.nVars = s.db.nVars := by
                intro s2 cur' h1 h2
                obtain ⟨a2, e2, r2⟩ := h.remove h1
                rw [e2]
                obtain ⟨a3, e3, r3, n3⟩ := aSubsumeScan_sim os r2 h2
                exact ⟨a3, e3, r3, n3.trans (SDB.remove_nVars h1)⟩
              cases hsub : subsumes (s.db.lits cc) (s.db.lits oc) with
              | none => rw [hsub] at he; exact aSubsumeScan_sim os h he
              | some z =>
                rw [hsub] at he
                cases z with
                | none =>
                  dsimp only at he ⊢
                  by_cases hw : (s.db.lits cc).length = (s.db.lits oc).length ∧
                      ((s.db.store cc).weight < (s.db.store oc).weight ∨
                        ((s.db.store cc).weight = (s.db.store oc).weight ∧ before cc oc = true))
                  · rw [if_pos hw] at he ⊢
                    split at he
                    · simp at he
                    · next s2 h1 => exact hrm cur h1 he
                  · rw [if_neg hw] at he ⊢
                    split at he
                    · next hp =>
                      rw [if_pos hp]
                      obtain ⟨a1, e1, r1⟩ := h.create (ls := s.db.lits cc) (lbd := 0) (h.lits cc hcl)
                      rw [e1]
                      dsimp only
                      split at he
                      · simp at he
                      · next s2 h2 =>
                        obtain ⟨a2, e2, r2⟩ := r1.remove h2
                        rw [e2]
                        dsimp only
                        split at he
                        · simp at he
                        · next s3 h3 =>
                          obtain ⟨a3, e3, r3⟩ := r2.remove h3
                          rw [e3]
                          obtain ⟨a4, e4, r4, n4⟩ := aSubsumeScan_sim os r3 he
                          exact ⟨a4, e4, r4, n4.trans ((SDB.remove_nVars h3).trans ((SDB.remove_nVars h2).trans
                            (SDB.create_nVars _ _ _)))⟩
                    · next hp =>
                      rw [if_neg hp]
                      split at he
                      · simp at he
                      · next s2 h1 => exact hrm cur h1 he
                | some l =>
                  dsimp only at he ⊢
                  have hlv : l.neg.var < s.db.nVars := by
                    rw [Lit.var_neg]; exact h.lits cc hcl l (subsumes_some hsub).1
                  split at he
                  · next hp =>
                    rw [if_pos hp]
                    split at he
                    · simp at he
                    · next s2 h1 =>
                      obtain ⟨a2, e2, r2⟩ := h.strengthen hlv h1
                      rw [e2]
                      simp only [Option.some.injEq, Prod.mk.injEq] at he
                      obtain ⟨rfl, rfl⟩ := he
                      exact ⟨a2, rfl, r2, SDB.strengthen_nVars h1⟩
                  · next hp =>
                    rw [if_neg hp]
                    simp only [Option.some.injEq, Prod.mk.injEq] at he
                    obtain ⟨rfl, rfl⟩ := he
                    exact ⟨a, rfl, h, rfl⟩

theorem aMinLoop_sim {n : Nat} {occ : List (List Nat)} {f : Nat → List Nat} (hf : ∀ v < n, occ[v]? = some (f v)) :
    ∀ (ls : List Lit) (b : Lit), (∀ l ∈ ls, l.var < n) → b.var < n →
    aMinLoop occ ls b = some (ls.foldl (fun b x => if (f x.var).length < (f b.var).length then x else b) b) ∧
    (ls.foldl (fun b x => if (f x.var).length < (f b.var).length then x else b) b).var < n
  | [], b, _, hb => ⟨rfl, hb⟩
  | x :: xs, b, hl, hb => by
    have hx := hl x (by simp)
    have hb' : (if (f x.var).length < (f b.var).length then x else b).var < n := by split <;> assumption
    obtain ⟨h1, h2⟩ := aMinLoop_sim hf xs (if (f x.var).length < (f b.var).length then x else b)
      (fun l h => hl l (by simp [h])) hb'
    refine ⟨?_, h2⟩
    rw [aMinLoop]
    unfold aNumOcc
    rw [hf _ hx, hf _ hb]
    exact h1

theorem RepO.minOcc {a : ASDB} {s : SDB} (h : RepO a s) {ls : List Lit} (hl : ∀ l ∈ ls, l.var < s.db.nVars)
    {b : Lit} (he : minOcc s.occ ls = some b) : aMinOcc a.occ ls = some b ∧ b.var < s.db.nVars := by
  cases ls with
  | nil => simp [Candy.minOcc] at he
  | cons l ls =>
    obtain ⟨h1, h2⟩ := aMinLoop_sim h.occ ls l (fun x hx => hl x (by simp [hx])) (hl l (by simp))
    simp only [Candy.minOcc, Option.some.injEq] at he
    rw [he] at h1 h2
    exact ⟨h1, h2⟩

theorem aSubsumeClause_sim {before : Nat → Nat → Bool} : ∀ (fuel : Nat) {a : ASDB} {s : SDB} {i : Nat},
    RepO a s → ∀ {s' : SDB} {b : Bool}, subsumeClause before fuel s i = some (s', b) →
    ∃ a', aSubsumeClause before fuel a i = some (a', b) ∧ RepO a' s' ∧ s'.db.nVars = s.db.nVars
  | 0, a, s, i, _, s', b, he => by simp [subsumeClause] at he
  | fuel + 1, a, s, i, h, s', b, he => by
    rw [subsumeClause] at he
    rw [aSubsumeClause, h.obj]
    cases hi : s.obj[i]? with
    | none => rw [hi] at he; simp at he
    | some x =>
      rw [hi] at he
      cases x with
      | none => simp at he
      | some c =>
        dsimp only at he ⊢
        have hc := h.objLt _ _ hi
        rw [h.store.get c hc]
        dsimp only
        split at he
        · simp at he
        · next best hb =>
          obtain ⟨m1, m2⟩ := h.minOcc (h.lits c hc) hb
          rw [m1]
          dsimp only
          rw [h.occ _ m2]
          dsimp only
          split at he
          · simp at he
          · next s1 h1 =>
            obtain ⟨a1, e1, r1, n1⟩ := aSubsumeScan_sim _ h h1
            rw [e1]
            simp only [Option.some.injEq, Prod.mk.injEq] at he
            obtain ⟨rfl, rfl⟩ := he
            exact ⟨a1, rfl, r1, n1⟩
          · next s1 h1 =>
            obtain ⟨a1, e1, r1, n1⟩ := aSubsumeScan_sim _ h h1
            rw [e1]
            simp only [Option.some.injEq, Prod.mk.injEq] at he
            obtain ⟨rfl, rfl⟩ := he
            exact ⟨a1, rfl, r1, n1⟩
          · next s1 j h1 =>
            obtain ⟨a1, e1, r1, n1⟩ := aSubsumeScan_sim _ h h1
            rw [e1]
            obtain ⟨a2, e2, r2, n2⟩ := aSubsumeClause_sim fuel r1 he
            exact ⟨a2, e2, r2, n2.trans n1⟩

theorem aUnitScan_sim {i : Nat} {unit : Lit} : ∀ (os : List Nat) {a : ASDB} {s : SDB}, RepO a s →
    unit.var < s.db.nVars → ∀ {s' : SDB} {b : Bool}, unitScan i unit os s = some (s', b) →
    ∃ a', aUnitScan i unit os a = some (a', b) ∧ RepO a' s' ∧ s'.db.nVars = s.db.nVars
  | [], a, s, h, _, s', b, he => by
    simp only [unitScan, Option.some.injEq, Prod.mk.injEq] at he
    obtain ⟨rfl, rfl⟩ := he
    exact ⟨a, rfl, h, rfl⟩
  | o :: os, a, s, h, hu, s', b, he => by
    rw [unitScan] at he
    rw [aUnitScan, h.obj]
    cases ho : s.obj[o]? with
    | none => rw [ho] at he; simp at he
    | some x =>
      rw [ho] at he
      cases x with
      | none => exact aUnitScan_sim os h hu he
      | some oc =>
        dsimp only at he ⊢
        by_cases hoi : o = i
        · rw [if_pos hoi] at he ⊢
          exact aUnitScan_sim os h hu he
        · rw [if_neg hoi] at he ⊢
          rw [h.store.get oc (h.objLt _ _ ho)]
          dsimp only
          by_cases hm : unit ∈ s.db.lits oc
          · rw [if_pos hm] at he ⊢
            split at he
            · simp at he
            · next s2 h1 =>
              obtain ⟨a2, e2, r2⟩ := h.remove h1
              rw [e2]
              have hn := SDB.remove_nVars h1
              obtain ⟨a3, e3, r3, n3⟩ := aUnitScan_sim os r2 (by rw [hn]; exact hu) he
              exact ⟨a3, e3, r3, n3.trans hn⟩
          · rw [if_neg hm] at he ⊢
            by_cases h1l : (s.db.lits oc).length = 1
            · rw [if_pos h1l] at he ⊢
              simp only [Option.some.injEq, Prod.mk.injEq] at he
              obtain ⟨rfl, rfl⟩ := he
              exact ⟨a, rfl, h, rfl⟩
            · rw [if_neg h1l] at he ⊢
              split at he
              · simp at he
              · next s2 h1 =>
                obtain ⟨a2, e2, r2⟩ := h.strengthen (by rw [Lit.var_neg]; exact hu) h1
                rw [e2]
                have hn := SDB.strengthen_nVars h1
                obtain ⟨a3, e3, r3, n3⟩ := aUnitScan_sim os r2 (by rw [hn]; exact hu) he
                exact ⟨a3, e3, r3, n3.trans hn⟩

theorem aSubsumeStep_sim {before : Nat → Nat → Bool} {fuel : Nat} {a : ASDB} {s : SDB} {i : Nat} (h : RepO a s)
    {s' : SDB} {b : Bool} (he : subsumeStep before fuel s i = some (s', b)) :
    ∃ a', aSubsumeStep before fuel a i = some (a', b) ∧ RepO a' s' ∧ s'.db.nVars = s.db.nVars := by
  unfold subsumeStep at he
  unfold aSubsumeStep
  rw [h.obj]
  cases hi : s.obj[i]? with
  | none => rw [hi] at he; simp at he
  | some x =>
    rw [hi] at he
    cases x with
    | none =>
      simp only [Option.some.injEq, Prod.mk.injEq] at he
      obtain ⟨rfl, rfl⟩ := he
      exact ⟨a, rfl, h, rfl⟩
    | some c =>
      have hc := h.objLt _ _ hi
      have hlit := h.lits c hc
      dsimp only [DB.lits] at he hlit ⊢
      rw [h.store.get c hc]
      dsimp only
      split at he
      · next u hu =>
        rw [hu] at hlit
        have hv := hlit u (by simp)
        simp only [hu]
        rw [h.occ _ hv]
        exact aUnitScan_sim _ h hv he
      · next hne =>
        split
        · next u hu => exact (hne u hu).elim
        · exact aSubsumeClause_sim fuel h he

theorem aSubsumeList_sim {before : Nat → Nat → Bool} {fuel : Nat} : ∀ (is : List Nat) {a : ASDB} {s : SDB},
    RepO a s → ∀ {s' : SDB} {b : Bool}, subsumeList before fuel is s = some (s', b) →
    ∃ a', aSubsumeList before fuel is a = some (a', b) ∧ RepO a' s' ∧ s'.db.nVars = s.db.nVars
  | [], a, s, h, s', b, he => by
    simp only [subsumeList, Option.some.injEq, Prod.mk.injEq] at he
    obtain ⟨rfl, rfl⟩ := he
    exact ⟨a, rfl, h, rfl⟩
  | i :: is, a, s, h, s', b, he => by
    rw [subsumeList] at he
    rw [aSubsumeList]
    split at he
    · simp at he
    · next s1 h1 =>
      obtain ⟨a1, e1, r1, n1⟩ := aSubsumeStep_sim h h1
      rw [e1]
      simp only [Option.some.injEq, Prod.mk.injEq] at he
      obtain ⟨rfl, rfl⟩ := he
      exact ⟨a1, rfl, r1, n1⟩
    · next s1 h1 =>
      obtain ⟨a1, e1, r1, n1⟩ := aSubsumeStep_sim h h1
      rw [e1]
      obtain ⟨a2, e2, r2, n2⟩ := aSubsumeList_sim is r1 he
      exact ⟨a2, e2, r2, n2.trans n1⟩

theorem aSubsumeAll_sim {before : Nat → Nat → Bool} {fuel : Nat} {a : ASDB} {s : SDB} (h : RepO a s)
    {s' : SDB} {b : Bool} (he : subsumeAll before fuel s = some (s', b)) :
    ∃ a', aSubsumeAll before fuel a = some (a', b) ∧ RepO a' s' ∧ s'.db.nVars = s.db.nVars := by
  unfold aSubsumeAll
  rw [h.obj]
  exact aSubsumeList_sim _ h he

end Candy
