import Verif.Model.ArraySimplify
import Verif.Proofs.ArrayRound

/-! Lemmas for C49: pre- and inprocessing on arrays. -/

namespace Candy

/-- The vectors represent the clause database with occurrence lists, and everything stored in it is in range. -/
structure RepO (a : ASDB) (s : SDB) : Prop where
  store : RepS s.db.next a.store s.db.store
  bin : RepWt s.db.nVars a.bin s.db.bin
  clauses : a.clauses = s.db.clauses
  e : a.e = s.db.hasEmpty
  obj : a.obj = s.obj
  occLen : a.occ.length = s.db.nVars
  occ : ∀ v < s.db.nVars, a.occ[v]? = some (s.occ v)
  occOut : ∀ v ≥ s.db.nVars, s.occ v = []
  occLt : ∀ v, ∀ i ∈ s.occ v, i < s.obj.length
  lits : ∀ c < s.db.next, ∀ l ∈ s.db.lits c, l.var < s.db.nVars
  objLt : ∀ i c : Nat, s.obj[i]? = some (some c) → c < s.db.next
  binLt : ∀ p, ∀ w ∈ s.db.bin p, w.blocker.var < s.db.nVars
  mem : ∀ c ∈ s.db.clauses, c < s.db.next

/-! ### Clause database -/

/-- What `RepO` says about the clause database alone. -/
structure RepD (a : ASDB) (db : DB) : Prop where
  store : RepS db.next a.store db.store
  bin : RepWt db.nVars a.bin db.bin
  clauses : a.clauses = db.clauses
  e : a.e = db.hasEmpty
  lits : ∀ c < db.next, ∀ l ∈ db.lits c, l.var < db.nVars
  binLt : ∀ p, ∀ w ∈ db.bin p, w.blocker.var < db.nVars
  mem : ∀ c ∈ db.clauses, c < db.next

theorem RepO.d {a : ASDB} {s : SDB} (h : RepO a s) : RepD a s.db :=
  ⟨h.store, h.bin, h.clauses, h.e, h.lits, h.binLt, h.mem⟩

theorem addBin_mem {bin : Lit → List Watcher} {c : Nat} {x y p : Lit} {w : Watcher}
    (h : w ∈ DB.addBin bin c x y p) : w ∈ bin p ∨ w.blocker = x ∨ w.blocker = y := by
  unfold DB.addBin at h
  simp only [List.mem_append] at h
  rcases h with h | h | h
  · exact .inl h
  · split at h
    · simp at h; subst h; exact .inr (.inr rfl)
    · simp at h
  · split at h
    · simp at h; subst h; exact .inr (.inl rfl)
    · simp at h

theorem RepD.create {a : ASDB} {db : DB} (h : RepD a db) {ls : List Lit} {lbd : Nat}
    (hl : ∀ l ∈ ls, l.var < db.nVars) :
    ∃ a', a.createClause ls lbd = some a' ∧ RepD a' (db.createClause ls lbd).1 ∧ a'.obj = a.obj ∧
      a'.occ = a.occ := by
  have hlen : a.store.length = db.next := h.store.size
  have hlits : ∀ c < db.next + 1, ∀ l ∈ (upd db.store db.next ⟨ls, if ls.length < 3 then 0 else lbd % 65536⟩ c).lits,
      l.var < db.nVars := by
    intro c hc l
    simp only [upd]
    split
    · exact hl l
    · exact h.lits c (by omega) l
  have hmem : ∀ c ∈ db.clauses ++ [db.next], c < db.next + 1 := by
    intro c hc
    simp only [List.mem_append, List.mem_singleton] at hc
    rcases hc with hc | rfl
    · have := h.mem c hc; omega
    · omega
  have hcl : a.clauses ++ [a.store.length] = db.clauses ++ [db.next] := by rw [h.clauses, hlen]
  unfold ASDB.createClause DB.createClause
  match ls, hl, hlits with
  | [], hl, hlits => exact ⟨_, rfl, ⟨h.store.push _, h.bin, hcl, by simp, hlits, h.binLt, hmem⟩, rfl, rfl⟩
  | [x], hl, hlits => exact ⟨_, rfl, ⟨h.store.push _, h.bin, hcl, by simp [h.e], hlits, h.binLt, hmem⟩, rfl, rfl⟩
  | [x, y], hl, hlits =>
    obtain ⟨b, e1, r1⟩ := h.bin.attach (hl x (by simp)) (hl y (by simp)) db.next
    dsimp only
    rw [hlen, e1]
    refine ⟨_, rfl, ⟨h.store.push _, r1, by dsimp only; rw [h.clauses], by simp [h.e], hlits, ?_, hmem⟩, rfl, rfl⟩
    intro p w hw
    rcases addBin_mem hw with hw | hw | hw
    · exact h.binLt p w hw
    · rw [hw]; exact hl x (by simp)
    · rw [hw]; exact hl y (by simp)
  | x :: y :: z :: r, hl, hlits =>
    exact ⟨_, rfl, ⟨h.store.push _, h.bin, hcl, by simp [h.e], hlits, h.binLt, hmem⟩, rfl, rfl⟩

theorem RepD.remove {a : ASDB} {db : DB} (h : RepD a db) {c : Nat} (hc : c < db.next) :
    ∃ x, aRemoveClause (a.store, a.bin) c = some x ∧
      RepD { a with store := x.1, bin := x.2 } (db.removeClause c) := by
  obtain ⟨x, e1, r1, r2⟩ := aRemoveClause_sim (x := (a.store, a.bin)) h.store h.bin hc (h.lits c hc)
  have hb : ∀ p, ∀ w ∈ (db.removeClause c).bin p, w ∈ db.bin p := by
    intro p w hw
    unfold DB.removeClause at hw
    dsimp only at hw
    split at hw
    · dsimp only at hw
      split at hw
      · exact (List.mem_filter.1 hw).1
      · exact hw
    · exact hw
  have hn : (db.removeClause c).nVars = db.nVars := by unfold DB.removeClause; dsimp only; split <;> rfl
  have hx : (db.removeClause c).next = db.next := by unfold DB.removeClause; dsimp only; split <;> rfl
  have hcl : (db.removeClause c).clauses = db.clauses := by unfold DB.removeClause; dsimp only; split <;> rfl
  have he : (db.removeClause c).hasEmpty = db.hasEmpty := by unfold DB.removeClause; dsimp only; split <;> rfl
  have hst : (db.removeClause c).store = upd db.store c ⟨db.lits c, Cls.deletedWeight⟩ := by
    unfold DB.removeClause; dsimp only; split <;> rfl
  refine ⟨x, e1, r1, r2, h.clauses.trans hcl.symm, h.e.trans he.symm, ?_, ?_, ?_⟩
  · rw [hx, hn]
    intro d hd l hl
    unfold DB.lits at hl
    rw [hst] at hl
    simp only [upd] at hl
    split at hl
    · next e => subst e; exact h.lits d hd l hl
    · exact h.lits d hd l hl
  · rw [hn]; intro p w hw; exact h.binLt p w (hb p w hw)
  · rw [hcl, hx]; exact h.mem

/-! ### Occurrence lists -/

theorem aPushOcc_sim {n : Nat} (i : Nat) : ∀ (ls : List Lit) {occ : List (List Nat)} {f : Nat → List Nat},
    occ.length = n → (∀ v < n, occ[v]? = some (f v)) → (∀ l ∈ ls, l.var < n) →
    ∃ occ', aPushOcc i ls occ = some occ' ∧ occ'.length = n ∧
      ∀ v < n, occ'[v]? = some (f v ++ (ls.filter (fun l => l.var == v)).map (fun _ => i))
  | [], occ, f, hn, hf, _ => ⟨occ, rfl, hn, by simpa using hf⟩
  | l :: ls, occ, f, hn, hf, hl => by
    have hv := hl l (by simp)
    rw [aPushOcc, hf _ hv]
    obtain ⟨occ', e1, e2, e3⟩ := aPushOcc_sim (n := n) i ls (occ := occ.set l.var (f l.var ++ [i]))
      (f := upd f l.var (f l.var ++ [i])) (by simpa using hn)
      (by
        intro v hvn
        simp only [upd]
        by_cases e : v = l.var
        · subst e; simp [hn, hv]
        · rw [if_neg e, List.getElem?_set_ne (fun h => e h.symm), hf v hvn])
      (fun x hx => hl x (by simp [hx]))
    refine ⟨occ', e1, e2, fun v hvn => ?_⟩
    rw [e3 v hvn]
    simp only [upd]
    by_cases e : v = l.var
    · subst e; simp
    · have : ¬ l.var = v := fun h => e h.symm
      simp [e, this]

theorem RepO.addObj {a : ASDB} {s : SDB} (h : RepO a s) {c : Nat} (hc : c < s.db.next) :
    ∃ a', a.addObj c = some a' ∧ RepO a' (s.addObj c) := by
  unfold ASDB.addObj
  rw [h.store.get c hc]
  obtain ⟨occ', e1, e2, e3⟩ := aPushOcc_sim (n := s.db.nVars) a.obj.length (s.db.lits c) h.occLen h.occ
    (h.lits c hc)
  dsimp only
  rw [e1]
  refine ⟨_, rfl, ⟨h.store, h.bin, h.clauses, h.e, by simp [SDB.addObj, h.obj], e2, ?_, ?_, ?_, h.lits, ?_,
    h.binLt, h.mem⟩⟩
  · intro v hv
    rw [e3 v hv, h.obj]; rfl
  · intro v hv
    show s.occ v ++ _ = []
    rw [h.occOut v hv]
    simp only [List.nil_append, List.map_eq_nil_iff, List.filter_eq_nil_iff, beq_iff_eq]
    intro l hl e
    have := h.lits c hc l hl
    have hv' : s.db.nVars ≤ v := hv
    omega
  · intro v i hi
    have hlen : (s.addObj c).obj.length = s.obj.length + 1 := by simp [SDB.addObj]
    rw [hlen]
    have hi : i ∈ s.occ v ++ ((s.db.lits c).filter (fun l => l.var == v)).map (fun _ => s.obj.length) := hi
    rcases List.mem_append.1 hi with hi | hi
    · have := h.occLt v i hi; omega
    · obtain ⟨_, _, rfl⟩ := List.mem_map.1 hi; omega
  · intro i d hd
    have hd : (s.obj ++ [some c])[i]? = some (some d) := hd
    rw [List.getElem?_append] at hd
    split at hd
    · exact h.objLt i d hd
    · have := List.mem_of_getElem? hd
      simp at this; subst this; exact hc

theorem RepO.addObjs : ∀ (cs : List Nat) {a : ASDB} {s : SDB}, RepO a s → (∀ c ∈ cs, c < s.db.next) →
    ∃ a', a.addObjs cs = some a' ∧ RepO a' (cs.foldl SDB.addObj s)
  | [], a, s, h, _ => ⟨a, rfl, h⟩
  | c :: cs, a, s, h, hc => by
    obtain ⟨a1, e1, r1⟩ := h.addObj (hc c (by simp))
    rw [ASDB.addObjs, e1]
    exact RepO.addObjs cs r1 (fun d hd => hc d (by simp [hd]))

theorem RepO.init {a : ASDB} {db : DB} (h : RepD a db) :
    ∃ a', ASDB.init db.nVars a.store a.bin a.clauses a.e = some a' ∧ RepO a' (SDB.init db) := by
  unfold ASDB.init
  rw [show a.clauses = db.clauses from h.clauses]
  refine RepO.addObjs db.clauses (s := ⟨db, [], fun _ => []⟩) ⟨h.store, h.bin, rfl, h.e, rfl, by simp, ?_, ?_, ?_,
    h.lits, ?_, h.binLt, h.mem⟩ h.mem
  · intro v hv; rw [List.getElem?_replicate, if_pos hv]
  · intro v _; rfl
  · intro v i hi; simp at hi
  · intro i c hi; simp at hi

theorem RepO.ofD {a a' : ASDB} {s : SDB} {db : DB} (h : RepO a s) (hd : RepD a' db) (ho : a'.obj = a.obj)
    (hc : a'.occ = a.occ) (hn : db.nVars = s.db.nVars) (hx : s.db.next ≤ db.next) :
    RepO a' { s with db := db } where
  store := hd.store
  bin := hd.bin
  clauses := hd.clauses
  e := hd.e
  obj := ho.trans h.obj
  occLen := by rw [hc]; exact h.occLen.trans hn.symm
  occ v hv := by rw [hc]; exact h.occ v (by rw [← hn]; exact hv)
  occOut v hv := h.occOut v (by rw [← hn]; exact hv)
  occLt := h.occLt
  lits := hd.lits
  objLt i c hi := Nat.lt_of_lt_of_le (h.objLt i c hi) hx
  binLt := hd.binLt
  mem := hd.mem

theorem RepO.create {a : ASDB} {s : SDB} (h : RepO a s) {ls : List Lit} {lbd : Nat}
    (hl : ∀ l ∈ ls, l.var < s.db.nVars) : ∃ a', a.create ls lbd = some a' ∧ RepO a' (s.create ls lbd) := by
  obtain ⟨a1, e1, r1, o1, o2⟩ := h.d.create (lbd := lbd) hl
  have hlen : a.store.length = s.db.next := h.store.size
  unfold ASDB.create
  rw [e1]
  have h2 : (s.db.createClause ls lbd).2 = s.db.next := by simp
  have h3 : (s.db.createClause ls lbd).1.next = s.db.next + 1 := by simp
  have h4 : (s.db.createClause ls lbd).1.nVars = s.db.nVars := by simp
  have r2 : RepO a1 { s with db := (s.db.createClause ls lbd).1 } := h.ofD r1 o1 o2 h4 (by omega)
  dsimp only
  obtain ⟨a2, e2, r3⟩ := r2.addObj (c := a.store.length) (by
    show a.store.length < (s.db.createClause ls lbd).1.next
    omega)
  refine ⟨a2, e2, ?_⟩
  have : s.create ls lbd = SDB.addObj { s with db := (s.db.createClause ls lbd).1 } a.store.length := by
    unfold SDB.create
    dsimp only
    rw [h2, ← hlen]
  rw [this]; exact r3

theorem RepO.remove {a : ASDB} {s s' : SDB} (h : RepO a s) {i : Nat} (he : s.remove i = some s') :
    ∃ a', a.remove i = some a' ∧ RepO a' s' := by
  unfold SDB.remove at he
  unfold ASDB.remove
  rw [h.obj]
  split at he
  · rename_i c hc
    have hlt := h.objLt i c hc
    obtain ⟨x, e1, r1⟩ := h.d.remove hlt
    simp only [Option.some.injEq] at he
    subst he
    have hx : (s.db.removeClause c).next = s.db.next := by unfold DB.removeClause; dsimp only; split <;> rfl
    have hn : (s.db.removeClause c).nVars = s.db.nVars := by unfold DB.removeClause; dsimp only; split <;> rfl
    have r2 := h.ofD r1 rfl rfl hn (by omega)
    rw [hc]
    dsimp only
    rw [e1]
    refine ⟨_, rfl, ⟨r2.store, r2.bin, r2.clauses, r2.e, rfl, r2.occLen, r2.occ, r2.occOut, ?_, r2.lits, ?_,
      r2.binLt, r2.mem⟩⟩
    · intro v j hj
      simp only [List.length_set]
      exact h.occLt v j hj
    · intro j d hd
      simp only at hd
      rw [List.getElem?_set] at hd
      split at hd
      · split at hd <;> simp at hd
      · exact r2.objLt j d hd
  · simp at he

theorem RepO.strengthen {a : ASDB} {s s' : SDB} (h : RepO a s) {i : Nat} {l : Lit} (hl : l.var < s.db.nVars)
    (he : s.strengthen i l = some s') : ∃ a', a.strengthen i l = some a' ∧ RepO a' s' := by
  unfold SDB.strengthen at he
  unfold ASDB.strengthen
  rw [h.obj]
  split at he
  · rename_i c hc
    have hlt := h.objLt i c hc
    simp only [Option.some.injEq] at he
    subst he
    rw [hc]
    unfold ASDB.strengthenClause
    dsimp only
    rw [h.store.get c hlt]
    dsimp only
    obtain ⟨a1, e1, r1, o1, o2⟩ := h.d.create (ls := (s.db.lits c).filter (fun x => x != l))
      (lbd := min (s.db.store c).weight ((s.db.lits c).filter (fun x => x != l)).length)
      (fun x hx => h.lits c hlt x (List.mem_filter.1 hx).1)
    rw [e1]
    dsimp only
    have h3 : ∀ ls lbd, (s.db.createClause ls lbd).1.next = s.db.next + 1 := by intros; simp
    have h4 : ∀ ls lbd, (s.db.createClause ls lbd).1.nVars = s.db.nVars := by intros; simp
    obtain ⟨x, e2, r2⟩ := r1.remove (c := c) (by rw [h3]; omega)
    rw [e2]
    have hdef : s.db.strengthenClause c l = ((s.db.createClause ((s.db.lits c).filter (fun x => x != l))
        (min (s.db.store c).weight ((s.db.lits c).filter (fun x => x != l)).length)).1.removeClause c, s.db.next) := by
      unfold DB.strengthenClause
      dsimp only
      rw [show (s.db.createClause ((s.db.lits c).filter (fun x => x != l))
        (min (s.db.store c).weight ((s.db.lits c).filter (fun x => x != l)).length)).2 = s.db.next by simp]
    have hx : ∀ (db : DB), (db.removeClause c).next = db.next := by
      intro db; unfold DB.removeClause; dsimp only; split <;> rfl
    have hn : ∀ (db : DB), (db.removeClause c).nVars = db.nVars := by
      intro db; unfold DB.removeClause; dsimp only; split <;> rfl
    have r3 := h.ofD r2 o1 o2 ((hn _).trans (h4 _ _)) (by rw [hx, h3]; omega)
    have hocc : a1.occ[l.var]? = some (s.occ l.var) := by rw [o2]; exact h.occ _ hl
    simp only [Option.map_some, hocc, Option.some.injEq, exists_eq_left']
    rw [hdef]
    have hlen : a.store.length = s.db.next := h.store.size
    have hnv := (hn (s.db.createClause ((s.db.lits c).filter (fun x => x != l))
        (min (s.db.store c).weight ((s.db.lits c).filter (fun x => x != l)).length)).1).trans (h4 _ _)
    refine ⟨r3.store, r3.bin, r3.clauses, r3.e, by rw [o1, h.obj, hlen], ?_, ?_, ?_, ?_, r3.lits, ?_,
      r3.binLt, r3.mem⟩
    · simp only [List.length_set]; exact r3.occLen
    · intro v hv
      simp only [upd]
      by_cases e : v = l.var
      · subst e
        have : l.var < a1.occ.length := by rw [o2, h.occLen]; exact hl
        simp [this]
      · rw [if_neg e, List.getElem?_set_ne (fun h => e h.symm)]
        exact r3.occ v hv
    · intro v hv
      simp only [upd]
      have hv' : v ≥ s.db.nVars := by rw [← hnv]; exact hv
      rw [if_neg (by omega)]
      exact h.occOut v hv'
    · intro v j hj
      simp only [List.length_set]
      simp only [upd] at hj
      split at hj
      · exact h.occLt _ j (List.mem_filter.1 hj).1
      · exact h.occLt v j hj
    · intro j d hd
      simp only at hd ⊢
      rw [List.getElem?_set] at hd
      split at hd
      · split at hd
        · simp at hd; subst hd; rw [hx, h3]; omega
        · simp at hd
      · exact r3.objLt j d hd
  · simp at he

theorem aCleanList_sim {obj : List (Option Nat)} : ∀ {is : List Nat}, (∀ i ∈ is, i < obj.length) →
    aCleanList obj is = some (is.filter fun i => obj[i]? != some none)
  | [], _ => rfl
  | i :: is, h => by
    have ih := aCleanList_sim (is := is) (fun j hj => h j (by simp [hj]))
    have hi := h i (by simp)
    rw [aCleanList, ih, List.filter_cons, List.getElem?_eq_getElem hi]
    cases obj[i] <;> simp

theorem aCleanLists_sim {obj : List (Option Nat)} : ∀ {occ : List (List Nat)},
    (∀ os ∈ occ, ∀ i ∈ os, i < obj.length) →
    aCleanLists obj occ = some (occ.map fun os => os.filter fun i => obj[i]? != some none)
  | [], _ => rfl
  | os :: occ, h => by
    rw [aCleanLists, aCleanList_sim (h os (by simp)), aCleanLists_sim (fun o ho => h o (by simp [ho]))]
    rfl

theorem RepO.cleanup {a : ASDB} {s : SDB} (h : RepO a s) : ∃ a', a.cleanup = some a' ∧ RepO a' s.cleanup := by
  unfold ASDB.cleanup
  rw [aCleanLists_sim (obj := a.obj) (occ := a.occ) (by
    intro os ho i hi
    obtain ⟨v, hv⟩ := List.mem_iff_getElem?.1 ho
    have hlt : v < s.db.nVars := by rw [← h.occLen]; exact (List.getElem?_eq_some_iff.1 hv).1
    rw [h.occ v hlt] at hv
    simp at hv; subst hv
    rw [h.obj]; exact h.occLt v i hi)]
  refine ⟨_, rfl, ⟨h.store, h.bin, h.clauses, h.e, h.obj, by simp only [List.length_map]; exact h.occLen, ?_, ?_, ?_, h.lits, h.objLt,
    h.binLt, h.mem⟩⟩
  · intro v hv
    simp only [List.getElem?_map, h.occ v hv, Option.map_some, h.obj]
    rfl
  · intro v hv
    show (s.occ v).filter _ = []
    rw [h.occOut v hv]; rfl
  · intro v i hi
    exact h.occLt v i (List.mem_filter.1 hi).1

end Candy
