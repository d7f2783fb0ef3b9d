import Verif.Proofs.FirstSolve
import Verif.Proofs.Clear
import Verif.Proofs.LevelBound
import Verif.Model.Tidy

/-! Preprocessing without elimination in arbitrary histories: permanent clauses are never lost as long
as no clause that is already removed takes part. -/

namespace Candy

variable {F B : CNF} {s s' : SDB}

/-- A permanent clause of the database. -/
def PermId (db : DB) (c : Nat) : Prop := c ∈ db.clauses ∧ (db.store c).weight = 0

/-- The permanent clauses of the database. -/
def DB.perm (db : DB) : CNF := (db.clauses.filter fun c => (db.store c).weight == 0).map db.lits

theorem mem_perm {db : DB} {K : Clause} : K ∈ db.perm ↔ ∃ c, PermId db c ∧ db.lits c = K := by
  simp [DB.perm, List.mem_map, List.mem_filter, PermId]

theorem carries_perm (db : DB) : CarriesDB db.perm db := by
  intro b hb
  obtain ⟨c, hc, rfl⟩ := mem_perm.1 hb
  exact ⟨c, hc.1, hc.2, List.Perm.refl _⟩

theorem CarriesDB.refines {db : DB} (h : CarriesDB B db) : Refines B db.perm := by
  intro K hK
  obtain ⟨c, h1, h2, h3⟩ := h K hK
  exact ⟨_, mem_perm.2 ⟨c, ⟨h1, h2⟩, rfl⟩, fun l hl => h3.mem_iff.1 hl⟩

/-- Short clauses are permanent. -/
def Strict (db : DB) : Prop := ∀ c ∈ db.clauses, (db.lits c).length < 3 → (db.store c).weight = 0

/-- Short clauses are permanent or marked deleted. -/
def Weak (db : DB) : Prop := ∀ c ∈ db.clauses, (db.lits c).length < 3 →
  (db.store c).weight = 0 ∨ (db.store c).weight = 65535

theorem Strict.weak {db : DB} (h : Strict db) : Weak db := fun c hc hl => Or.inl (h c hc hl)

/-- Relation between objects of simplification and clauses of the database. -/
structure POk (s : SDB) : Prop where
  weak : Weak s.db
  inj : ∀ i j c : Nat, s.obj[i]? = some (some c) → s.obj[j]? = some (some c) → i = j
  short : ∀ i c : Nat, s.obj[i]? = some (some c) → (s.db.lits c).length < 3 →
    (s.db.store c).weight = 0

theorem create_perm (s : SDB) (ls : List Lit) {d : Nat} (hd : d ≠ s.db.next) :
    (s.create ls).db.store d = s.db.store d := by
  rw [create_db, createClause_store, upd_ne _ _ hd]

theorem POk.create (h : POk s) (hs : SOk F s) (ls : List Lit) : POk (s.create ls) ∧
    Refines s.db.perm (s.create ls).db.perm := by
  have hobj : ∀ i d : Nat, (s.create ls).obj[i]? = some (some d) ↔
      s.obj[i]? = some (some d) ∨ (i = s.obj.length ∧ d = s.db.next) := by
    intro i d
    have := addObj_obj (s := { s with db := (s.db.createClause ls).1 }) (i := i) (c := s.db.next) (d := d)
    unfold SDB.create
    simp only [createClause_id]
    exact this
  have hlt : ∀ i c : Nat, s.obj[i]? = some (some c) → c ≠ s.db.next := fun i c hi => by
    have := hs.lt hi; omega
  have hnew : ((s.create ls).db.store s.db.next).weight = 0 := by
    rw [create_db, createClause_store]; simp
  have hmem : ∀ d, d ∈ (s.create ls).db.clauses ↔ d ∈ s.db.clauses ∨ d = s.db.next := by
    intro d; rw [create_db, createClause_clauses, List.mem_append, List.mem_singleton]
  refine ⟨⟨?_, ?_, ?_⟩, ?_⟩
  · intro c hc hl
    by_cases hd : c = s.db.next
    · rw [hd]; exact Or.inl hnew
    · unfold DB.lits at hl
      rw [create_perm s ls hd] at hl ⊢
      exact h.weak c (((hmem c).1 hc).resolve_right hd) hl
  · intro i j c hi hj
    rcases (hobj i c).1 hi with hi | ⟨rfl, rfl⟩
    · rcases (hobj j c).1 hj with hj | ⟨rfl, rfl⟩
      · exact h.inj i j c hi hj
      · exact (hlt i _ hi rfl).elim
    · rcases (hobj j s.db.next).1 hj with hj | ⟨rfl, _⟩
      · exact (hlt j _ hj rfl).elim
      · rfl
  · intro i c hi hl
    rcases (hobj i c).1 hi with hi | ⟨rfl, rfl⟩
    · unfold DB.lits at hl
      rw [create_perm s ls (hlt i c hi)] at hl ⊢
      exact h.short i c hi hl
    · exact hnew
  · intro K hK
    obtain ⟨c, hc, rfl⟩ := mem_perm.1 hK
    have hne : c ≠ s.db.next := by have := hs.db.mem c hc.1; omega
    refine ⟨_, mem_perm.2 ⟨c, ⟨(hmem c).2 (Or.inl hc.1), by rw [create_perm s ls hne]; exact hc.2⟩, rfl⟩, ?_⟩
    intro x hx
    unfold DB.lits at hx
    rw [create_perm s ls hne] at hx
    exact hx

theorem POk.remove (h : POk s) {i : Nat} (he : s.remove i = some s') : POk s' := by
  obtain ⟨c, hc, rfl⟩ := remove_eq he
  have hobj : ∀ j d : Nat, (s.obj.set i none)[j]? = some (some d) → s.obj[j]? = some (some d) ∧ j ≠ i := by
    intro j d hj
    rcases set_obj hj with ⟨_, h2⟩ | ⟨h1, h2⟩
    · simp at h2
    · exact ⟨h2, fun e => h1 e.symm⟩
  refine ⟨?_, ?_, ?_⟩
  · intro d hd hl
    simp only [removeClause_clauses, removeClause_store] at hd ⊢
    by_cases hdc : d = c
    · subst hdc; simp
    · unfold DB.lits at hl
      simp only [removeClause_store] at hl
      rw [upd_ne _ _ hdc] at hl ⊢
      exact h.weak d hd hl
  · intro a b d ha hb
    exact h.inj a b d (hobj a d ha).1 (hobj b d hb).1
  · intro a d ha hl
    obtain ⟨h1, h2⟩ := hobj a d ha
    have hdc : d ≠ c := fun e => h2 (by subst e; exact h.inj a i d h1 hc)
    unfold DB.lits at hl
    simp only [removeClause_store] at hl ⊢
    rw [upd_ne _ _ hdc] at hl ⊢
    exact h.short a d h1 hl

theorem remove_refines (h : POk s) (hs : SOk F s) {i ci j cj : Nat} (he : s.remove i = some s')
    (hi : s.obj[i]? = some (some ci)) (hj : s.obj[j]? = some (some cj)) (hij : j ≠ i)
    (hsub : ∀ l ∈ s.db.lits cj, l ∈ s.db.lits ci)
    (hw : (s.db.store cj).weight = 0 ∨ (s.db.store ci).weight ≠ 0 ∨ (s.db.lits cj).length < 3) :
    Refines s.db.perm s'.db.perm := by
  obtain ⟨c, hc, rfl⟩ := remove_eq he
  have : c = ci := Option.some.inj (Option.some.inj (hc.symm.trans hi))
  subst this
  have key : ∀ d, PermId s.db d → d ≠ c → s.db.lits d ∈ (s.db.removeClause c).perm := by
    intro d hd hne
    refine mem_perm.2 ⟨d, ⟨?_, ?_⟩, ?_⟩
    · rw [removeClause_clauses]; exact hd.1
    · rw [removeClause_store, upd_ne _ _ hne]; exact hd.2
    · simp
  intro K hK
  obtain ⟨d, hd, rfl⟩ := mem_perm.1 hK
  by_cases hdc : d = c
  · subst hdc
    have hcj : (s.db.store cj).weight = 0 := by
      rcases hw with h1 | h1 | h1
      · exact h1
      · exact (h1 hd.2).elim
      · exact h.short j cj hj h1
    refine ⟨_, key cj ⟨hs.obj j cj hj, hcj⟩ ?_, hsub⟩
    rintro rfl
    exact hij (h.inj j i _ hj hi)
  · exact ⟨_, key d hd hdc, fun _ h => h⟩

theorem POk.strengthen (h : POk s) (hs : SOk F s) {i : Nat} {l : Lit}
    (he : s.strengthen i l = some s') : POk s' ∧ Refines s.db.perm s'.db.perm := by
  obtain ⟨c, hc, e⟩ := strengthen_eq he
  have hlt := hs.lt hc
  have hobj : ∀ j d : Nat, s'.obj[j]? = some (some d) →
      (j = i ∧ d = s.db.next) ∨ (j ≠ i ∧ s.obj[j]? = some (some d)) := by
    intro j d hj
    rw [e] at hj
    rcases set_obj hj with ⟨h1, h2⟩ | ⟨h1, h2⟩
    · simp at h2; exact Or.inl ⟨h1.symm, h2⟩
    · exact Or.inr ⟨fun e => h1 e.symm, h2⟩
  have hcl : s'.db.clauses = s.db.clauses ++ [s.db.next] := by
    rw [e]; simp only [strengthenClause_clauses]
  have hst : ∀ d, d ≠ c → d ≠ s.db.next → s'.db.store d = s.db.store d := by
    intro d h1 h2
    rw [e]
    simp only
    rw [strengthenClause_eq]
    simp only [removeClause_store, createClause_store]
    rw [upd_ne _ _ h1, upd_ne _ _ h2]
  have hold : (s'.db.store c).weight = 65535 := by
    rw [e]
    simp only
    rw [strengthenClause_eq]
    simp [removeClause_store]
  have hnew : s'.db.store s.db.next = ⟨(s.db.lits c).filter (fun x => x != l),
      if ((s.db.lits c).filter (fun x => x != l)).length < 3 then 0
      else (min (s.db.store c).weight ((s.db.lits c).filter (fun x => x != l)).length) % 65536⟩ := by
    rw [e]
    simp only
    rw [strengthenClause_eq]
    simp only [removeClause_store, createClause_store]
    rw [upd_ne _ _ (by omega)]
    simp
  have hnewS : (s'.db.lits s.db.next).length < 3 → (s'.db.store s.db.next).weight = 0 := by
    unfold DB.lits
    rw [hnew]
    simp only
    intro h3
    rw [if_pos h3]
  refine ⟨⟨?_, ?_, ?_⟩, ?_⟩
  · intro d hd hl
    rw [hcl, List.mem_append, List.mem_singleton] at hd
    by_cases h1 : d = c
    · rw [h1]; exact Or.inr hold
    · by_cases h2 : d = s.db.next
      · subst h2; exact Or.inl (hnewS hl)
      · unfold DB.lits at hl
        rw [hst d h1 h2] at hl ⊢
        exact h.weak d (hd.resolve_right h2) hl
  · intro a b d ha hb
    rcases hobj a d ha with ⟨rfl, rfl⟩ | ⟨h1, h2⟩
    · rcases hobj b _ hb with ⟨rfl, _⟩ | ⟨_, h2⟩
      · rfl
      · have := hs.lt h2; omega
    · rcases hobj b d hb with ⟨rfl, rfl⟩ | ⟨_, h4⟩
      · have := hs.lt h2; omega
      · exact h.inj a b d h2 h4
  · intro a d ha hl
    rcases hobj a d ha with ⟨rfl, rfl⟩ | ⟨h1, h2⟩
    · exact hnewS hl
    · have hdc : d ≠ c := fun e => h1 (by subst e; exact h.inj a i d h2 hc)
      have hdn : d ≠ s.db.next := by have := hs.lt h2; omega
      unfold DB.lits at hl
      rw [hst d hdc hdn] at hl ⊢
      exact h.short a d h2 hl
  · intro K hK
    obtain ⟨d, hd, rfl⟩ := mem_perm.1 hK
    by_cases hdc : d = c
    · subst hdc
      refine ⟨_, mem_perm.2 ⟨s.db.next, ⟨by rw [hcl]; simp, ?_⟩, rfl⟩, ?_⟩
      · rw [hnew]; simp [hd.2]
      · intro x hx
        unfold DB.lits at hx
        rw [hnew] at hx
        exact (List.mem_filter.1 hx).1
    · have hdn : d ≠ s.db.next := by have := hs.db.mem d hd.1; omega
      refine ⟨_, mem_perm.2 ⟨d, ⟨by rw [hcl]; simp [hd.1], by rw [hst d hdc hdn]; exact hd.2⟩, rfl⟩, ?_⟩
      intro x hx
      unfold DB.lits at hx
      rw [hst d hdc hdn] at hx
      exact hx

theorem GStep.keep (hs : SOk F s) (h : POk s) (hg : GStep F s s') :
    POk s' ∧ Refines s.db.perm s'.db.perm := by
  cases hg with
  | sub hg =>
    cases hg with
    | copy hj => exact h.create hs _
    | remove he hi hj hij hsub hw => exact ⟨h.remove he, remove_refines h hs he hi hj hij hsub hw⟩
    | strengthen he hi hj hij hl hm => exact h.strengthen hs he
  | shrink he hent _ => exact h.strengthen hs he
  | perm hp =>
    rename_i st
    have hlen : ∀ c, ((st c).lits).length = (s.db.lits c).length := fun c => (hp c).1.length_eq
    refine ⟨⟨?_, h.inj, ?_⟩, ?_⟩
    · intro c hc hl
      simp only
      rw [(hp c).2]
      exact h.weak c hc (by rw [← hlen c]; exact hl)
    · intro i c hi hl
      simp only
      rw [(hp c).2]
      exact h.short i c hi (by rw [← hlen c]; exact hl)
    · intro K hK
      obtain ⟨c, hc, rfl⟩ := mem_perm.1 hK
      refine ⟨_, mem_perm.2 ⟨c, ⟨hc.1, ?_⟩, rfl⟩, ?_⟩
      · simp only; rw [(hp c).2]; exact hc.2
      · intro x hx; exact (hp c).1.mem_iff.1 hx

theorem GSteps.keep (hg : GSteps F s s') (hs : SOk F s) (h : POk s) :
    POk s' ∧ Refines s.db.perm s'.db.perm := by
  induction hg with
  | refl => exact ⟨h, Refines.refl _⟩
  | cons a _ ih =>
    obtain ⟨b1, b2⟩ := a.keep hs h
    obtain ⟨c1, c2⟩ := ih (a.sound hs).1 b1
    exact ⟨c1, b2.trans c2⟩

theorem POk.init {db : DB} (hn : db.clauses.Nodup) (hz : Strict db) :
    POk (SDB.init db) ∧ (SDB.init db).db = db := by
  obtain ⟨k1, k2, _, k4, _, _⟩ := init_fold db db.clauses ⟨db, [], fun _ => []⟩ rfl hn
    (by simp) (by simp) (by simp)
  refine ⟨⟨?_, k2, ?_⟩, k1⟩
  · unfold SDB.init; rw [k1]; exact hz.weak
  · intro i c h hl
    rcases k4 i c h with h1 | h1
    · simp at h1
    · unfold SDB.init at hl ⊢
      rw [k1] at hl ⊢
      exact hz c h1 hl

/-- What every stage of the loop guarantees when no contradiction was found. -/
structure PStage (p p' : Proc) : Prop where
  empty : p.sys.sol.db.hasEmpty = false
  dec : p'.sys.sol.trail.decision = p.sys.sol.trail.decision
  body : POk p.sdb → POk p'.sdb ∧ Refines p.sys.sol.db.perm p'.sys.sol.db.perm

theorem PStage.refl {p : Proc} (h : p.sys.sol.db.hasEmpty = false) : PStage p p :=
  ⟨h, rfl, fun h => ⟨h, Refines.refl _⟩⟩

theorem PStage.trans {a b c : Proc} (h : PStage a b) (h' : PStage b c) : PStage a c :=
  ⟨h.empty, h'.dec.trans h.dec, fun hp => by
    obtain ⟨a1, a2⟩ := h.body hp
    obtain ⟨b1, b2⟩ := h'.body a1
    exact ⟨b1, a2.trans b2⟩⟩

theorem mat_weak {s s' : Solver} (hd : DBOk F s.db) (hm : AddsUnits s.db s'.db s'.trail) :
    Refines s.db.perm s'.db.perm ∧ (Weak s.db → Weak s'.db) ∧ (Strict s.db → Strict s'.db) := by
  have hnew : ∀ c ∈ s'.db.clauses, (c ∈ s.db.clauses ∧ c < s.db.next) ∨ (s'.db.store c).weight = 0 := by
    intro c hc
    obtain ⟨ext, e1, e2⟩ := hm.clauses
    rw [e1, List.mem_append] at hc
    rcases hc with hc | hc
    · exact Or.inl ⟨hc, hd.mem c hc⟩
    · exact Or.inr (e2 c hc).2.2.1
  refine ⟨?_, ?_, ?_⟩
  · intro K hK
    obtain ⟨c, hc, rfl⟩ := mem_perm.1 hK
    have hlt := hd.mem c hc.1
    exact ⟨_, mem_perm.2 ⟨c, ⟨hm.mem hc.1, by rw [hm.weight c hlt]; exact hc.2⟩, rfl⟩,
      fun x hx => (hm.lits c hlt).mem_iff.1 hx⟩
  · intro hw c hc hl
    rcases hnew c hc with ⟨h1, h2⟩ | h1
    · rw [hm.weight c h2]
      exact hw c h1 (by rw [← (hm.lits c h2).length_eq]; exact hl)
    · exact Or.inl h1
  · intro hw c hc hl
    rcases hnew c hc with ⟨h1, h2⟩ | h1
    · rw [hm.weight c h2]
      exact hw c h1 (by rw [← (hm.lits c h2).length_eq]; exact hl)
    · exact h1

theorem PStage.ofMat {p : Proc} {s : Solver} (h : QInv F p) (hp : p.sys.sol.db.hasEmpty = false)
    (hm : Mat F p.sys.sol s) : PStage p { p with sys := { p.sys with sol := s } } := by
  obtain ⟨r1, r2, _⟩ := mat_weak h.inv.db hm.add
  refine ⟨hp, hm.grow.decision, fun hb => ⟨⟨r2 hb.weak, hb.inj, ?_⟩, r1⟩⟩
  intro i c hi hl
  have hlt : c < p.sys.sol.db.next := h.ok.lt hi
  show (s.db.store c).weight = 0
  rw [hm.add.weight c hlt]
  refine hb.short i c hi ?_
  have := (hm.add.lits c hlt).length_eq
  show (p.sys.sol.db.lits c).length < 3
  rw [← this]; exact hl

theorem PStage.materialize {p p' : Proc} (h : QInv F p) (he : p.materialize = some p')
    (hne : p'.sys.sol.db.hasEmpty = false) : PStage p p' := by
  have hp : p.sys.sol.db.hasEmpty = false := hasEmpty_mono (h.materialize he).2.hasEmpty hne
  obtain ⟨s, h1, hm⟩ := materialize_spec h.inv.db (h.inv.l0 hp)
  unfold Proc.materialize at he
  rw [h1] at he
  simp at he; subst he
  exact PStage.ofMat h hp hm

theorem PStage.after {p : Proc} {ok clean : Bool}
    (hne : (p.after ok clean).sys.sol.db.hasEmpty = false) : PStage p (p.after ok clean) := by
  obtain ⟨h1, rfl⟩ := after_hasEmpty hne
  cases clean with
  | false => exact PStage.refl h1
  | true => exact ⟨h1, rfl, fun hb => ⟨⟨hb.weak, hb.inj, hb.short⟩, Refines.refl _⟩⟩

theorem PStage.subsume {p p' : Proc} {r : PreRound} (h : QInv F p) (he : p.subsume r = some p')
    (hne : p'.sys.sol.db.hasEmpty = false) : PStage p p' := by
  unfold Proc.subsume at he
  cases hs : subsumeAll r.before r.fuel p.sdb with
  | none => rw [hs] at he; simp at he
  | some x =>
    obtain ⟨s, b⟩ := x
    rw [hs] at he
    simp at he; subst he
    obtain ⟨h1, h2⟩ := subsumeAll_steps h.ok hs
    obtain ⟨h3, h4⟩ := h1.sound h.ok
    refine PStage.trans ?_ (PStage.after hne)
    exact ⟨hasEmpty_mono h4.hasEmpty (after_hasEmpty hne).1, rfl,
      fun hb => (SSteps.toG (F := F) h1).keep h.ok hb⟩

theorem PStage.ofReduce {p : Proc} {s : SDB} {T : Trail} {w : Lit → List Watcher} (h : QInv F p)
    (hne0 : p.sys.sol.db.hasEmpty = false) (h2 : GSteps F p.sdb s) (h3 : TEq p.sys.sol.trail T) :
    PStage p (Proc.mk { p.sys with sol := { p.sys.sol with db := s.db, watch := w, trail := T } }
      s.obj s.occ) :=
  ⟨hne0, h3.decision, fun hb => h2.keep h.ok hb⟩

theorem PStage.reduce {p p' : Proc} {cfg : Config} {r : PreRound} (h : QInv F p)
    (hne0 : p.sys.sol.db.hasEmpty = false) (he : p.reduce cfg r = some p')
    (hne : p'.sys.sol.db.hasEmpty = false) : PStage p p' := by
  unfold Proc.reduce at he
  cases hs : asymAll cfg.useAsymm ⟨p.sdb, p.sys.sol.watch, p.sys.sol.trail⟩ with
  | none => rw [hs] at he; simp at he
  | some x =>
    obtain ⟨st, b⟩ := x
    rw [hs] at he
    simp at he; subst he
    have hl := h.inv.l0 hne0
    have ha : AOk F ⟨p.sdb, p.sys.sol.watch, p.sys.sol.trail⟩ := ⟨h.ok, hl.core, hl.watch, hl.lim⟩
    obtain ⟨h1, h2, h3, h4⟩ := asymAll_spec ha hs
    exact PStage.trans (PStage.ofReduce h hne0 h2 h3) (PStage.after hne)

theorem PStage.eliminate {p p' : Proc} {cfg : Config} {r : PreRound} (hu : cfg.useElim = false)
    (he : p.eliminate cfg r = some p') (hne : p'.sys.sol.db.hasEmpty = false) : PStage p p' := by
  unfold Proc.eliminate eliminateAll at he
  rw [hu] at he
  simp only [Bool.false_eq_true, if_false, Option.map_some, Option.some.injEq] at he
  subst he
  refine PStage.trans ?_ (PStage.after hne)
  have := (after_hasEmpty hne).1
  exact ⟨this, rfl, fun hb => ⟨hb, Refines.refl _⟩⟩

theorem PStage.round {p p' : Proc} {cfg : Config} {r : PreRound} {b : Bool} (hu : cfg.useElim = false)
    (h : QInv F p) (he : p.round cfg r = some (p', b)) (hne : p'.sys.sol.db.hasEmpty = false) :
    PStage p p' := by
  unfold Proc.round at he
  split at he
  · simp at he
  · rename_i p1 hp1
    obtain ⟨a1, _⟩ := h.materialize hp1
    split at he
    · rename_i hE
      simp at he; obtain ⟨rfl, rfl⟩ := he
      rw [hE] at hne; simp at hne
    · split at he
      · simp at he
      · rename_i p3 hp3
        obtain ⟨p2, hp2, hp3⟩ := Option.bind_eq_some_iff.1 hp3
        obtain ⟨b1, _⟩ := a1.subsume hp2
        obtain ⟨c1, _⟩ := b1.materialize hp3
        split at he
        · rename_i hE
          simp at he; obtain ⟨rfl, rfl⟩ := he
          rw [hE] at hne; simp at hne
        · rename_i hne3
          have hne3 : p3.sys.sol.db.hasEmpty = false := by simpa using hne3
          split at he
          · simp at he
          · rename_i p5 hp5
            obtain ⟨p4, hp4, hp5⟩ := Option.bind_eq_some_iff.1 hp5
            obtain ⟨d1, _⟩ := c1.reduce hne3 hp4
            split at he
            · rename_i hE
              simp at he; obtain ⟨rfl, rfl⟩ := he
              rw [hE] at hne; simp at hne
            · rename_i hne5
              have hne5 : p5.sys.sol.db.hasEmpty = false := by simpa using hne5
              obtain ⟨p6, hp6, hb⟩ := Option.map_eq_some_iff.1 he
              simp at hb; obtain ⟨rfl, rfl⟩ := hb
              have s5 := PStage.materialize d1 hp5 hne5
              have s4 := PStage.reduce c1 hne3 hp4 s5.empty
              have s3 := PStage.materialize b1 hp3 hne3
              have s2 := PStage.subsume a1 hp2 s3.empty
              have s1 := PStage.materialize h hp1 s2.empty
              exact ((((s1.trans s2).trans s3).trans s4).trans s5).trans (PStage.eliminate hu hp6 hne)

theorem PStage.rounds {cfg : Config} (hu : cfg.useElim = false) : ∀ (rs : List PreRound) (p : Proc),
    QInv F p → ∀ p', Proc.rounds cfg rs p = some p' → p'.sys.sol.db.hasEmpty = false → PStage p p'
  | [], p, h, p', he, hne => by
    simp [Proc.rounds] at he; subst he; exact PStage.refl hne
  | r :: rs, p, h, p', he, hne => by
    rw [Proc.rounds] at he
    split at he
    · simp at he
    · rename_i p1 hp1
      simp at he; subst he
      exact PStage.round hu h hp1 hne
    · rename_i p1 hp1
      have s2 := PStage.rounds hu rs p1 (h.round hp1).1 p' he hne
      exact (PStage.round hu h hp1 s2.empty).trans s2

/-- Preprocessing without elimination keeps every permanent clause or a subset of it. -/
theorem process_keeps {cfg : Config} (hu : cfg.useElim = false) {rs : List PreRound} {sys sys' : Sys}
    (h : PInv F sys) (hst : Strict sys.sol.db) (he : process cfg rs sys = some sys')
    (hne : sys'.sol.db.hasEmpty = false) :
    Weak sys'.sol.db ∧ Refines sys.sol.db.perm sys'.sol.db.perm ∧
      sys'.sol.trail.decision = sys.sol.trail.decision := by
  unfold Candy.process at he
  obtain ⟨p, hpp, rfl⟩ := Option.map_eq_some_iff.1 he
  have hok : SOk F (SDB.init sys.sol.db) := SOk.init h.db
  obtain ⟨hlv, hdb⟩ := POk.init h.db.nodup hst
  have e : (SDB.init sys.sol.db) = ⟨sys.sol.db, (SDB.init sys.sol.db).obj,
      (SDB.init sys.sol.db).occ⟩ := by
    conv => lhs; rw [show SDB.init sys.sol.db = ⟨(SDB.init sys.sol.db).db,
      (SDB.init sys.sol.db).obj, (SDB.init sys.sol.db).occ⟩ from rfl, hdb]
  rw [e] at hok hlv
  have hq : QInv F ⟨sys, (SDB.init sys.sol.db).obj, (SDB.init sys.sol.db).occ⟩ := ⟨h, hok⟩
  have k := PStage.rounds hu rs _ hq p hpp hne
  obtain ⟨k1, k2⟩ := k.body hlv
  exact ⟨k1.weak, k2, k.dec⟩

/-! ### Search keeps short clauses permanent -/

theorem Strict.create {db : DB} (h : Strict db) {ls : List Lit}
    {lbd : Nat} {lem : Bool} : Strict (db.createClause ls lbd lem).1 := by
  intro c hc hl
  rw [createClause_clauses, List.mem_append, List.mem_singleton] at hc
  unfold DB.lits at hl
  rw [createClause_store] at hl ⊢
  by_cases hd : c = db.next
  · subst hd
    simp only [upd_apply, if_true] at hl ⊢
    rw [if_pos hl]
  · rw [upd_ne _ _ hd] at hl ⊢
    exact h c (hc.resolve_right hd) hl

theorem learnStep_strict {s s' : Solver} {confl : Nat}
    (h : Strict s.db) (he : learnStep s confl = some s') : Strict s'.db := by
  unfold learnStep at he
  split at he
  · cases he
  · rename_i r hr
    dsimp only at he
    have hdb : Strict (s.db.reestimate s.recalc s.trail r.involved) := by
      intro c hc hl
      rw [(reestimate_frame _ _ _ _).1] at hc
      unfold DB.lits at hl
      rw [reestimate_lits] at hl
      exact (reestimate_weight0 _ _ _ _ c).1 (h c hc hl)
    have h2 := hdb.create (ls := r.learnt) (lbd := r.lbd) (lem := false)
    split at he
    · simp only [Option.some.injEq] at he; subst he
      exact h2
    · cases he

theorem Strict.perm {db : DB} (h : Strict db) {st : Nat → Cls} (hp : StoreExt db.store st) :
    Strict { db with store := st } := by
  intro c hc hl
  simp only
  rw [(hp c).2]
  exact h c hc (by unfold DB.lits; rw [← (hp c).1.length_eq]; exact hl)

def IterOut.sol : IterOut → Solver
  | .cont s => s
  | .done s _ => s

theorem searchIter_strict {A : Nat → Prop} {s : Solver} {ch : Choice} {out : IterOut}
    (h : SInv F A s) (hst : Strict s.db) (he : searchIter s ch = some out) : Strict out.sol.db := by
  obtain ⟨ps, r, e1, e2, e3, e4, e5, _⟩ := propagateLoop_spec (A := A)
    (s.db.nVars + 1) ⟨s.db.store, s.watch, s.trail⟩ h.core h.watch h.limq (by omega)
  have hp : Strict { s.db with store := ps.store } := hst.perm e5
  unfold searchIter at he
  rw [e1] at he
  dsimp only at he
  split at he
  · split at he
    · simp only [Option.some.injEq] at he; subst he; exact hp
    · obtain ⟨s1, h1, rfl⟩ := Option.map_eq_some_iff.1 he
      exact learnStep_strict (s := { s with db := { s.db with store := ps.store }, watch := ps.watch, trail := ps.T })
        hp h1
  · split at he
    · simp only [Option.some.injEq] at he; subst he; exact hp
    · split at he
      · simp only [Option.some.injEq] at he; subst he; exact hp
      · simp only [Option.some.injEq] at he; subst he; exact hp
      · split at he
        · simp only [Option.some.injEq] at he; subst he; exact hp
        · simp only [Option.some.injEq] at he; subst he; exact hp

theorem search_strict : ∀ (fuel : Nat) (o : Nat → Choice) (A : Nat → Prop) (s : Solver), SInv F A s →
    (∀ i, (o i).Valid) → Strict s.db → ∀ s' r, search fuel o s = some (s', r) → Strict s'.db
  | 0, o, A, s, _, _, _, s', r, he => by simp [search] at he
  | fuel + 1, o, A, s, h, ho, hst, s', r, he => by
    rw [search] at he
    obtain ⟨out, h1, h2⟩ := searchIter_spec h (ho 0)
    have h3 := searchIter_strict h hst h1
    rw [h1] at he
    cases out with
    | done s1 r1 =>
      simp only [Option.some.injEq, Prod.mk.injEq] at he
      obtain ⟨rfl, rfl⟩ := he
      exact h3
    | cont s1 =>
      obtain ⟨a, hcf, z, A1, b, c, y⟩ := h2
      exact search_strict fuel (fun i => o (i + 1)) A1 s1 c (fun i => ho (i + 1)) h3 s' r he

theorem removeFold_weak : ∀ (cs : List Nat) (db : DB), Weak db → Weak (cs.foldl DB.removeClause db)
  | [], db, h => h
  | d :: cs, db, h => by
    rw [List.foldl_cons]
    refine removeFold_weak cs _ ?_
    intro c hc hl
    rw [removeClause_clauses] at hc
    unfold DB.lits at hl
    rw [removeClause_store] at hl ⊢
    by_cases hd : c = d
    · subst hd; simp
    · rw [upd_ne _ _ hd] at hl ⊢
      exact h c hc hl

theorem Weak.reorganize {db : DB} (h : Weak db) : Strict db.reorganize := by
  intro i hi hl
  have hi' : i < db.reorganize.next := by
    rw [reorganize_clauses] at hi
    simpa [reorganize_next] using hi
  obtain ⟨c, _, c1, c2, c3⟩ := reorganize_get hi'
  unfold DB.lits at hl
  rw [c3] at hl ⊢
  rcases h c c1 hl with h1 | h1
  · exact h1
  · simp [Cls.isDeleted, Cls.deletedWeight, h1] at c2

theorem solveRound_strict {cfg : Config} {r : Round} {sys sys' : Sys} {b : Option Bool}
    (h : RoundInv F sys) (hr : r.Plain)
    (hb : ∀ l ∈ sys.sol.trail.assumptions, l.var < sys.sol.db.nVars)
    (hw : Weak sys.sol.db) (hst : r.trigger = false → Strict sys.sol.db)
    (he : solveRound cfg r sys = some (sys', b)) :
    Strict sys'.sol.db := by
  obtain ⟨db, w, e1, e2, e3⟩ := reduceStep_plain (cfg := cfg)
    (sys := { sys with sol := { sys.sol with trail := sys.sol.trail.reset } }) hr.inprocess
  obtain ⟨a1, a2⟩ := h.reset.reduceStep hr.sort e1
  have hstr : Strict db := by
    cases ht : r.trigger with
    | true =>
      obtain ⟨rfl, rfl⟩ := e2 ht
      exact (removeFold_weak _ _ hw).reorganize
    | false =>
      obtain ⟨rfl, rfl⟩ := e3 ht
      exact hst ht
  unfold solveRound at he
  dsimp only at he e1
  rw [e1] at he
  dsimp only at he
  cases hE0 : db.hasEmpty with
  | true =>
    obtain ⟨s, h1, h2, h3, h4, h5, h6, h7, h8⟩ := materialize_empty (s :=
      { sys.sol with trail := sys.sol.trail.reset, db := db, watch := w }) a1.db hE0
    rw [h1] at he
    simp only [h4] at he
    simp only [if_true, Option.some.injEq, Prod.mk.injEq] at he
    obtain ⟨rfl, rfl⟩ := he
    intro c hc hl
    simp only at hc hl ⊢
    rw [h3.clauses] at hc
    unfold DB.lits at hl
    rw [h3.store] at hl ⊢
    exact hstr c hc hl
  | false =>
    have hl0 := a1.l0 hE0
    obtain ⟨s, h1, hm⟩ := materialize_spec a1.db hl0
    rw [h1] at he
    dsimp only at he
    have hss : Strict s.db := (mat_weak a1.db hm.add).2.2 hstr
    split at he
    · rename_i hE
      simp only [Option.some.injEq, Prod.mk.injEq] at he
      obtain ⟨rfl, rfl⟩ := he
      exact hss
    · rename_i hE
      have hE : s.db.hasEmpty = false := by simpa using hE
      obtain ⟨x, hx, hxe⟩ := Option.map_eq_some_iff.1 he
      obtain ⟨s', b'⟩ := x
      simp only [Prod.mk.injEq] at hxe
      obtain ⟨rfl, rfl⟩ := hxe
      have hS := start_sinv a1.db rfl hm hE (by
        intro l hl
        rw [hm.grow.assumptions] at hl
        rw [hm.add.nVars]
        have h5 : db.nVars = sys.sol.db.nVars := a2.nVars
        simp only
        rw [h5]
        exact hb l hl)
      exact search_strict r.steps r.choice _ s hS hr.choice hss s' b' hx

theorem solveLoop_strict {cfg : Config} : ∀ (rs : List Round) (sys : Sys), RoundInv F sys →
    (∀ r ∈ rs, r.Plain) →
    (∀ l ∈ sys.sol.trail.assumptions, l.var < sys.sol.db.nVars) → sys.sol.conflict = [] →
    Weak sys.sol.db → (Strict sys.sol.db ∨ ∃ r, rs.head? = some r ∧ r.trigger = true) →
    ∀ sys' b, solveLoop cfg rs sys = some (sys', b) → Strict sys'.sol.db
  | [], sys, h, _, _, hcf, _, hst, sys', b, he => by
    simp only [solveLoop, Option.some.injEq, Prod.mk.injEq] at he
    obtain ⟨rfl, rfl⟩ := he
    rcases hst with hst | ⟨r, hr, _⟩
    · exact hst
    · simp at hr
  | r :: rs, sys, h, hr, hb, hcf, hw, hst, sys', b, he => by
    have hp := hr r (by simp)
    have hstr : r.trigger = false → Strict sys.sol.db := by
      intro ht
      rcases hst with hst | ⟨r', h1, h2⟩
      · exact hst
      · simp at h1; subst h1; rw [ht] at h2; cases h2
    rw [solveLoop] at he
    split at he
    · simp at he
    · rename_i sys1 h1
      obtain ⟨a1, a2, a3, a4, a5, a6, _⟩ := solveRound_spec h ⟨hp.choice, hp.sort⟩ hb hcf h1
      obtain ⟨a6, a7⟩ := a6 (by simp)
      have hs1 := solveRound_strict h hp hb hw hstr h1
      exact solveLoop_strict rs sys1 ⟨a1, a2, a3, a7⟩ (fun q hq => hr q (by simp [hq]))
        (by rw [a5, a4]; exact hb) a6 hs1.weak (Or.inl hs1) sys' b he
    · rename_i sys1 b1 h1
      simp only [Option.some.injEq, Prod.mk.injEq] at he
      obtain ⟨rfl, rfl⟩ := he
      exact solveRound_strict h hp hb hw hstr h1

/-! ### Calls and histories -/

/-- Invariant between tidy calls. -/
structure TidyOk (F : CNF) (sys : Sys) : Prop where
  ok : SysOk F sys
  ve : NoVE sys.ve
  body : sys.sol.db.hasEmpty = false → Refines F sys.sol.db.perm ∧ Strict sys.sol.db ∧
    ∀ v, sys.sol.trail.decision v = true

theorem noVE_start {sys : Sys} (h : NoVE sys.ve) :
    (solveStart sys).sol = { sys.sol with conflict := [], trail := sys.sol.trail.reset,
                                          watch := resetWatch sys.sol.db } := by
  obtain ⟨a, b, c, d⟩ := plain_resetLoop sys.sol.trail.reset.assumptions
    { sys.ve with frozen := fun _ => false } sys.sol.trail.reset h.cls
  unfold solveStart
  dsimp only
  unfold VE.reset
  rw [a, b]
  rfl

theorem tidy_solve {cfg : Config} {pre : List PreRound} {rounds : List Round} {sys sys' : Sys}
    {res : Result} (h : TidyOk F sys) (hp : cfg.preprocessing = true → cfg.useElim = false)
    (hr : ∀ r ∈ rounds, r.Plain)
    (hb : ∀ l ∈ sys.sol.trail.assumptions, l.var < sys.sol.db.nVars)
    (he : solve cfg pre rounds sys = some (sys', res)) :
    ((cfg.preprocessing = true → ∃ r, rounds.head? = some r ∧ r.trigger = true) → TidyOk F sys') ∧
    (res.status = some true →
      PSat res.model F ∧
      (∀ l ∈ sys.sol.trail.assumptions, l.trueIn res.model) ∧
      (∀ v < sys.sol.db.nVars, res.model v ≠ none)) := by
  obtain ⟨s1, s2, s3, s4⟩ := solve_sound h.ok (fun r hrm => ⟨(hr r hrm).choice, (hr r hrm).sort⟩) hb he
  obtain ⟨p1, p2, p3, p4, p5⟩ := solveStart_spec h.ok
  have q1 := noVE_start h.ve
  have hve' : NoVE sys'.ve := by
    refine solve_noVE ?_ he h.ve
    cases hpp : cfg.preprocessing with
    | false => exact Or.inr ⟨hpp, fun r hm => (hr r hm).inprocess⟩
    | true => exact Or.inl (hp hpp)
  rw [solve_eq] at he
  obtain ⟨sys1, h1, he⟩ := Option.bind_eq_some_iff.1 he
  obtain ⟨⟨sys2, status⟩, h2, he⟩ := Option.bind_eq_some_iff.1 he
  obtain ⟨g1, g2, g3, g4⟩ := solveEntry_spec h.ok h1
  have hE1 : sys.sol.db.hasEmpty = true → sys1.sol.db.hasEmpty = true := solveEntry_hasEmpty h.ok h1
  -- after preprocessing
  have pre' : NoVE sys1.ve ∧ (sys1.sol.db.hasEmpty = false →
      Refines F sys1.sol.db.perm ∧ Weak sys1.sol.db ∧ sys1.sol.watch = resetWatch sys1.sol.db ∧
      (cfg.preprocessing = false → Strict sys1.sol.db) ∧
      (∀ v, sys1.sol.trail.decision v = true)) := by
    unfold solveEntry at h1
    dsimp only at h1
    have v0 := solveStart_noVE h.ve
    have hdb : (solveStart sys).sol.db = sys.sol.db := by rw [q1]
    have hdec : (solveStart sys).sol.trail.decision = sys.sol.trail.decision := by rw [q1]; rfl
    split at h1
    · rename_i hpp
      obtain ⟨sys0, h0, rfl⟩ := Option.map_eq_some_iff.1 h1
      have v1 : NoVE sys0.ve := process_noVE (hp hpp) h0 v0
      refine ⟨v1, fun hne => ?_⟩
      have hne0 : sys.sol.db.hasEmpty = false := hasEmpty_mono hE1 hne
      obtain ⟨b1, b2, b3⟩ := h.body hne0
      obtain ⟨k1, k2, k3⟩ := process_keeps (hp hpp) p1 (by rw [hdb]; exact b2) h0 hne
      rw [hdb] at k2
      exact ⟨b1.trans k2, k1, rfl, (fun e => absurd (hpp.symm.trans e) (by simp)), fun v => by
        simp only; rw [k3, hdec]; exact b3 v⟩
    · simp only [Option.some.injEq] at h1
      subst h1
      refine ⟨v0, fun hne => ?_⟩
      have hne0 : sys.sol.db.hasEmpty = false := hasEmpty_mono hE1 hne
      obtain ⟨b1, b2, b3⟩ := h.body hne0
      rw [hdb]
      exact ⟨b1, b2.weak, by rw [q1], fun _ => b2, fun v => by rw [hdec]; exact b3 v⟩
  obtain ⟨v1, k⟩ := pre'
  -- after the main loop
  have loop : NoVE sys2.ve ∧ (sys2.sol.db.hasEmpty = false → Refines F sys2.sol.db.perm ∧
        (∀ v, sys2.sol.trail.decision v = true) ∧
        ((cfg.preprocessing = true → ∃ r, rounds.head? = some r ∧ r.trigger = true) →
          Strict sys2.sol.db)) ∧
      (status = some true → (∀ v, sys2.sol.trail.decision v = true) ∧
        ∃ B, Refines F B ∧ RoundSat B sys2 status) := by
    split at h2
    · rename_i hE
      simp only [Option.some.injEq, Prod.mk.injEq] at h2
      obtain ⟨rfl, rfl⟩ := h2
      refine ⟨v1, fun hne => ?_, by simp⟩
      rw [hE] at hne; cases hne
    · rename_i hE
      have hE : sys1.sol.db.hasEmpty = false := by simpa using hE
      obtain ⟨k1, k2, k3, k4, k5⟩ := k hE
      have hcar : Carries sys1.sol.db.perm sys1.sol.db sys1.sol.watch := by
        rw [k3]; exact (carries_perm _).reset
      have hbd : ∀ l ∈ sys1.sol.trail.assumptions, l.var < sys1.sol.db.nVars := by
        rw [g3, g2]; exact hb
      obtain ⟨c1, c2, c3, c4⟩ := solveLoop_model rounds _ g1 hr hbd g4 hcar sys2 status h2
      have d2 : ∀ v, sys2.sol.trail.decision v = true := by intro v; rw [c2]; exact k5 v
      refine ⟨by rw [c1]; exact v1, fun _ => ⟨k1.trans c3.refines, d2, fun hf => ?_⟩,
        fun hst => ⟨d2, _, k1, (c4 hst).1⟩⟩
      refine solveLoop_strict rounds _ g1 hr hbd g4 k2 ?_ sys2 status h2
      cases hpp : cfg.preprocessing with
      | false => exact Or.inl (k4 hpp)
      | true => exact Or.inr (hf hpp)
  obtain ⟨l1, l3, l4⟩ := loop
  have fin : (cfg.preprocessing = true → ∃ r, rounds.head? = some r ∧ r.trigger = true) →
      sys2.sol.db.hasEmpty = false → Refines F sys2.sol.db.perm ∧ Strict sys2.sol.db ∧
      ∀ v, sys2.sol.trail.decision v = true :=
    fun hf hne => ⟨(l3 hne).1, (l3 hne).2.2 hf, (l3 hne).2.1⟩
  dsimp only at he
  unfold solveEnd at he
  split at he
  · simp only [Option.some.injEq, Prod.mk.injEq] at he
    obtain ⟨rfl, rfl⟩ := he
    refine ⟨fun hf => ⟨s1, hve', fun hne => ?_⟩, by simp⟩
    simp only [Trail.backtrack_decision]
    exact fin hf hne
  · simp only [Option.some.injEq, Prod.mk.injEq] at he
    obtain ⟨rfl, rfl⟩ := he
    refine ⟨fun hf => ⟨s1, hve', ?_⟩, by simp⟩
    simp only [Trail.backtrack_decision]
    split
    · intro hne; simp [DB.emptyClause] at hne
    · exact fin hf
  · rename_i hl
    rw [l1.vars] at he
    simp only [List.reverse_nil, extendModel, Option.some.injEq, Prod.mk.injEq] at he
    obtain ⟨rfl, rfl⟩ := he
    obtain ⟨l2, B, m1, m2⟩ := l4 rfl
    refine ⟨fun hf => ⟨s1, hve', fun hne => ?_⟩, fun _ => ⟨?_, ?_, ?_⟩⟩
    · simp only [Trail.backtrack_decision]
      exact fin hf hne
    · refine m1.psat ?_
      intro c hc
      obtain ⟨l, x1, x2⟩ := m2.sat rfl c hc (fun l _ => l2 _)
      exact ⟨l, x1, modelOf_mem (m2.tinv rfl) x2⟩
    · intro l hl
      refine modelOf_mem (m2.tinv rfl) ((m2.complete rfl).assumptions l ?_)
      have : sys2.sol.trail.assumptions = sys.sol.trail.assumptions := by
        simpa [Trail.backtrack_assumptions] using s3
      rw [this]; exact hl
    · intro v hv
      simp only
      rw [modelOf_assigns (m2.tinv rfl)]
      refine (m2.complete rfl).decided v ?_ (l2 v)
      have e1 := s1.nv
      simp only [Trail.backtrack_nVars] at e1
      rw [e1]
      simp only at s2
      rw [s2]; exact hv

theorem createFold_strict {f : Clause → Nat} {lem : Bool} : ∀ (cs : List Clause) (db : DB), Strict db →
    Strict (cs.foldl (fun d c => (d.createClause c (f c) lem).1) db)
  | [], _, h => h
  | _ :: cs, _, h => createFold_strict cs _ h.create

theorem tidy_init {sys : Sys} (h : TidyOk F sys) {nv : Nat} {G : CNF}
    (hG : WfCNF (max sys.sol.db.nVars nv) G) : TidyOk (F ++ G) (sys.init nv G) := by
  obtain ⟨a1, a2, _⟩ := init_sound h.ok (lem := true) hG
  have hem := init_hasEmpty (sys := sys) (nv := nv) (G := G) (flag := true)
  have e : sys.init nv G = { sys with sol := { sys.sol with
      db := sys.sol.db.init nv G, trail := sys.sol.trail.init (sys.sol.db.init nv G).nVars,
      watch := attachAll (sys.sol.db.init nv G).store sys.sol.watch (sys.sol.db.init nv G).clauses } } := by
    unfold Sys.init
    dsimp only
    rw [plain_restoreAll _ _ (by exact h.ve.cls)]
  refine ⟨a1, by rw [e]; exact h.ve, fun hne => ?_⟩
  obtain ⟨b1, b2, b3⟩ := h.body (hasEmpty_mono hem hne)
  rw [e]
  refine ⟨?_, ?_, ?_⟩
  · have : CarriesDB (sys.sol.db.perm ++ G) (sys.sol.db.init nv G) := by
      simp only [DB.init]
      refine createFold_carries (f := fun c => if true = true then 0 else c.length) (by simp) G
        sys.sol.db.perm _ ?_ ?_
      · split <;> exact h.ok.db.mem
      · split <;> exact carries_perm _
    refine Refines.trans ?_ this.refines
    intro K hK
    rcases List.mem_append.1 hK with hK | hK
    · obtain ⟨K', c1, c2⟩ := b1 K hK
      exact ⟨K', List.mem_append_left _ c1, c2⟩
    · exact ⟨K, List.mem_append_right _ hK, fun _ h => h⟩
  · simp only [DB.init]
    refine createFold_strict (f := fun c => if true = true then 0 else c.length) G _ ?_
    split <;> exact b2
  · intro v
    simp only [Trail.init]
    split <;> exact b3 v

theorem TidyHistory.toHistory {as : List Lit} {sys : Sys} (h : TidyHistory F as sys) :
    History .noInprocessing F as sys := by
  induction h with
  | new recalc => exact .new recalc
  | add h nv G hG ih => exact ih.add nv G true trivial hG
  | assume h as' hb ih => exact ih.assume as' hb
  | solve h cfg pre rounds hc he ih => exact ih.solve cfg pre rounds trivial hc.rounds he

theorem TidyHistory.tidy {as : List Lit} {sys : Sys} (h : TidyHistory F as sys) : TidyOk F sys := by
  induction h with
  | new recalc =>
    refine ⟨new_ok recalc, ⟨rfl, fun _ => rfl⟩, fun _ => ⟨by intro K hK; simp at hK, ?_, fun _ => rfl⟩⟩
    intro c hc; simp [Sys.new, DB.new] at hc
  | add h nv G hG ih => exact tidy_init ih hG
  | assume h as' hb ih => exact ⟨ih.ok.assume as', ih.ve, ih.body⟩
  | solve h cfg pre rounds hc he ih =>
    have ho := h.toHistory.ok Usage.noInprocessing_valid
    refine (tidy_solve ih hc.elim (fun r hm => ?_) (by rw [ho.assumptions]; exact ho.bound) he).1 hc.first
    have := hc.rounds r hm
    exact ⟨this.1.choice, this.2, this.1.sort⟩

end Candy
