import Verif.Model.Simplify
import Verif.Proofs.Search

/-! Effect of the simplification code on the invariants of the clause database. -/

namespace Candy

variable {F : CNF} {nV next : Nat} {bin : Lit → List Watcher} {store : Nat → Cls} {T : Trail}

/-! ### Clause database operations -/

section Remove
variable (db : DB) (c : Nat)

@[simp] theorem removeClause_store : (db.removeClause c).store =
    upd db.store c ⟨db.lits c, 65535⟩ := by
  simp only [DB.removeClause]; split <;> simp [Cls.deletedWeight]
@[simp] theorem removeClause_next : (db.removeClause c).next = db.next := by
  simp only [DB.removeClause]; split <;> simp
@[simp] theorem removeClause_nVars : (db.removeClause c).nVars = db.nVars := by
  simp only [DB.removeClause]; split <;> simp
@[simp] theorem removeClause_clauses : (db.removeClause c).clauses = db.clauses := by
  simp only [DB.removeClause]; split <;> simp
@[simp] theorem removeClause_hasEmpty : (db.removeClause c).hasEmpty = db.hasEmpty := by
  simp only [DB.removeClause]; split <;> simp
@[simp] theorem removeClause_log :
    (db.removeClause c).log = db.log ++ [.del (db.lits c)] := by
  simp only [DB.removeClause]; split <;> simp
theorem removeClause_bin_sub {p : Lit} {w : Watcher} (h : w ∈ (db.removeClause c).bin p) :
    w ∈ db.bin p := by
  simp only [DB.removeClause] at h
  split at h
  · simp only at h
    split at h
    · exact (List.mem_filter.1 h).1
    · exact h
  · exact h
theorem removeClause_bin_keep {p : Lit} {w : Watcher} (h : w ∈ db.bin p) (hc : w.cref ≠ c) :
    w ∈ (db.removeClause c).bin p := by
  simp only [DB.removeClause]
  split
  · simp only
    split
    · exact List.mem_filter.2 ⟨h, by simpa using hc⟩
    · exact h
  · exact h
@[simp] theorem removeClause_lits (d : Nat) : (db.removeClause c).lits d = db.lits d := by
  simp only [DB.lits, removeClause_store]
  by_cases h : d = c
  · subst h; simp
  · rw [upd_ne _ _ h]

theorem removeClause_bin_ne {p : Lit} {w : Watcher} (hw : w ∈ (db.removeClause c).bin p)
    (hl : (db.store c).lits = [p.neg, w.blocker] ∨ (db.store c).lits = [w.blocker, p.neg]) :
    w.cref ≠ c := by
  unfold DB.removeClause DB.lits at hw
  rcases hl with hl | hl <;> rw [hl] at hw <;> simp at hw <;> exact hw.2

end Remove

theorem DBOk.removeClause {db : DB} (h : DBOk F db) {c : Nat} (hc : c < db.next) :
    DBOk F (db.removeClause c) where
  mem := by simpa using h.mem
  nodup := by simpa using h.nodup
  wf d hd := by
    simp only [removeClause_next, removeClause_nVars] at hd ⊢
    rw [show ((db.removeClause c).store d).lits = (db.store d).lits from removeClause_lits db c d]
    exact h.wf d hd
  nd d hd := by
    rw [show ((db.removeClause c).store d).lits = (db.store d).lits from removeClause_lits db c d]
    exact h.nd d (by simpa using hd)
  ent d hd := by
    rw [show ((db.removeClause c).store d).lits = (db.store d).lits from removeClause_lits db c d]
    exact h.ent d (by simpa using hd)
  binSym p w hw := by
    have h1 := removeClause_bin_sub db c hw
    by_cases hwc : w.cref = c
    · exact absurd hwc (removeClause_bin_ne db c hw (hwc ▸ (h.binInv p w h1).2))
    · exact removeClause_bin_keep db c (h.binSym p w h1) hwc
  binInv p w hw := by
    rw [show ((db.removeClause c).store w.cref).lits = (db.store w.cref).lits from
      removeClause_lits db c _]
    simpa using h.binInv p w (removeClause_bin_sub db c hw)
  binAll d hd hw x y hl := by
    rw [show ((db.removeClause c).store d).lits = (db.store d).lits from
      removeClause_lits db c d] at hl
    have hdc : d ≠ c := by
      rintro rfl; simp at hw
    rw [removeClause_store, upd_ne _ _ hdc] at hw
    obtain ⟨a, b⟩ := h.binAll d (by simpa using hd) hw x y hl
    exact ⟨removeClause_bin_keep db c a hdc, removeClause_bin_keep db c b hdc⟩
  empt := by simpa using h.empt
  emptAll d hd hl := by
    rw [show ((db.removeClause c).store d).lits = (db.store d).lits from
      removeClause_lits db c d] at hl
    simpa using h.emptAll d (by simpa using hd) hl
  log ln hln := by
    rw [removeClause_log] at hln
    rcases List.mem_append.1 hln with h1 | h1
    · exact h.log ln h1
    · simp at h1; subst h1; trivial
  hist d hd := by
    rw [show ((db.removeClause c).store d).lits = (db.store d).lits from removeClause_lits db c d,
      removeClause_log]
    exact (h.hist d (by simpa using hd)).mono _
  dels := by
    rw [removeClause_log]
    refine h.dels.snoc fun d hd => ?_
    simp at hd; subst hd
    exact h.hist c hc
  short d hd := by
    rw [show ((db.removeClause c).store d).lits = (db.store d).lits from removeClause_lits db c d]
    intro hl
    rw [removeClause_store]
    by_cases hdc : d = c
    · subst hdc; rw [upd_same]; exact Or.inr rfl
    · rw [upd_ne _ _ hdc]; exact h.short d (by simpa using hd) hl

theorem DBOk.emptyClause {db : DB} (h : DBOk F db) (he : Entails F []) :
    DBOk F db.emptyClause where
  mem := h.mem
  nodup := h.nodup
  wf := h.wf
  nd := h.nd
  ent := h.ent
  binSym := h.binSym
  binInv := h.binInv
  binAll := h.binAll
  empt _ := he
  emptAll _ _ _ := rfl
  log ln hln := by
    rcases List.mem_append.1 hln with h1 | h1
    · exact h.log ln h1
    · simp at h1; subst h1; exact he
  hist c hc := (h.hist c hc).mono _
  dels := h.dels.snoc (by simp)
  short := h.short

/-- `db'` arises from `db` by adding clauses and marking clauses as deleted. -/
structure DBExt (db db' : DB) : Prop where
  next : db.next ≤ db'.next
  nVars : db'.nVars = db.nVars
  lits : ∀ c < db.next, db'.lits c = db.lits c
  hasEmpty : db.hasEmpty = true → db'.hasEmpty = true

theorem DBExt.refl (db : DB) : DBExt db db :=
  ⟨Nat.le_refl _, rfl, fun _ _ => rfl, id⟩

theorem DBExt.trans {a b c : DB} (h : DBExt a b) (h' : DBExt b c) : DBExt a c where
  next := Nat.le_trans h.next h'.next
  nVars := h'.nVars.trans h.nVars
  lits d hd := (h'.lits d (Nat.lt_of_lt_of_le hd h.next)).trans (h.lits d hd)
  hasEmpty he := h'.hasEmpty (h.hasEmpty he)

theorem DBExt.removeClause (db : DB) (c : Nat) : DBExt db (db.removeClause c) :=
  ⟨by simp, by simp, fun _ _ => by simp, by simp⟩

theorem createClause_lits (db : DB) (ls : List Lit) (lbd : Nat) (lem : Bool) (d : Nat) :
    (db.createClause ls lbd lem).1.lits d = if d = db.next then ls else db.lits d := by
  simp only [DB.lits, createClause_store, upd_apply]
  split <;> simp

theorem DBExt.createClause (db : DB) (ls : List Lit) (lbd : Nat) (lem : Bool) :
    DBExt db (db.createClause ls lbd lem).1 :=
  ⟨by simp, by simp, fun d hd => by rw [createClause_lits, if_neg (by omega)],
    by rw [createClause_hasEmpty]; simp +contextual⟩

theorem DBExt.emptyClause (db : DB) : DBExt db db.emptyClause :=
  ⟨Nat.le_refl _, rfl, fun _ _ => rfl, fun _ => rfl⟩

theorem strengthenClause_eq (db : DB) (c : Nat) (l : Lit) :
    db.strengthenClause c l =
      ((db.createClause ((db.lits c).filter (fun x => x != l))
        (min (db.store c).weight ((db.lits c).filter (fun x => x != l)).length)).1.removeClause c,
        db.next) := by
  simp only [DB.strengthenClause, createClause_id]

theorem nodup_filter_var {ls : List Lit} (h : (ls.map Lit.var).Nodup) (p : Lit → Bool) :
    ((ls.filter p).map Lit.var).Nodup :=
  h.sublist (List.filter_sublist.map _)

theorem DBOk.strengthenClause {db : DB} (h : DBOk F db) {c : Nat} {l : Lit} (hc : c < db.next)
    (he : Entails F ((db.lits c).filter (fun x => x != l))) :
    DBOk F (db.strengthenClause c l).1 := by
  rw [strengthenClause_eq]
  refine (h.createClause ?_ ?_ he).removeClause (by rw [createClause_next]; omega)
  · intro x hx
    exact h.wf c hc x ((List.mem_filter.1 hx).1)
  · exact nodup_filter_var (h.nd c hc) _

theorem DBExt.strengthenClause (db : DB) (c : Nat) (l : Lit) :
    DBExt db (db.strengthenClause c l).1 := by
  rw [strengthenClause_eq]
  exact (DBExt.createClause ..).trans (DBExt.removeClause ..)

/-! ### Occurrence lists -/

/-- Invariant of `SubsumptionClauseDatabase`. -/
structure SOk (F : CNF) (s : SDB) : Prop where
  db : DBOk F s.db
  obj : ∀ (i c : Nat), s.obj[i]? = some (some c) → c ∈ s.db.clauses
  occLt : ∀ v, ∀ i ∈ s.occ v, i < s.obj.length
  occNd : ∀ v, (s.occ v).Nodup
  occVar : ∀ v, ∀ i ∈ s.occ v, ∀ c, s.obj[i]? = some (some c) → ∃ l ∈ s.db.lits c, l.var = v

theorem SOk.lt {s : SDB} (h : SOk F s) {i c : Nat} (hi : s.obj[i]? = some (some c)) :
    c < s.db.next := h.db.mem c (h.obj i c hi)

theorem filter_var_length_le {ls : List Lit} (h : (ls.map Lit.var).Nodup) (v : Nat) :
    (ls.filter (fun l => l.var == v)).length ≤ 1 := by
  induction ls with
  | nil => simp
  | cons x xs ih =>
    simp only [List.map_cons, List.nodup_cons] at h
    rw [List.filter_cons]
    split
    · rename_i hx
      have : xs.filter (fun l => l.var == v) = [] := by
        rw [List.filter_eq_nil_iff]
        intro y hy hyv
        apply h.1
        have e1 : x.var = v := by simpa using hx
        have e2 : y.var = v := by simpa using hyv
        exact List.mem_map.2 ⟨y, hy, e2.trans e1.symm⟩
      rw [this]; simp
    · exact ih h.2

theorem mem_addObj_occ {s : SDB} {c v i : Nat} :
    i ∈ (s.addObj c).occ v ↔ i ∈ s.occ v ∨ (i = s.obj.length ∧ ∃ l ∈ s.db.lits c, l.var = v) := by
  simp only [SDB.addObj, List.mem_append, List.mem_map, List.mem_filter, beq_iff_eq]
  constructor
  · rintro (h | ⟨l, ⟨h1, h2⟩, rfl⟩)
    · exact Or.inl h
    · exact Or.inr ⟨rfl, l, h1, h2⟩
  · rintro (h | ⟨rfl, l, h1, h2⟩)
    · exact Or.inl h
    · exact Or.inr ⟨l, ⟨h1, h2⟩, rfl⟩

theorem SOk.addObj {s : SDB} (h : SOk F s) {c : Nat} (hc : c ∈ s.db.clauses) :
    SOk F (s.addObj c) where
  db := h.db
  obj i d hi := by
    simp only [SDB.addObj] at hi
    by_cases hl : i < s.obj.length
    · rw [List.getElem?_append_left hl] at hi
      exact h.obj i d hi
    · rw [List.getElem?_append_right (by omega)] at hi
      have := List.mem_of_getElem? hi
      simp at this; subst this; exact hc
  occLt v i hi := by
    rw [mem_addObj_occ] at hi
    simp only [SDB.addObj, List.length_append, List.length_singleton]
    rcases hi with hi | ⟨rfl, _⟩
    · have := h.occLt v i hi; omega
    · omega
  occNd v := by
    simp only [SDB.addObj]
    rw [List.nodup_append]
    refine ⟨h.occNd v, ?_, ?_⟩
    · have := filter_var_length_le (h.db.nd c (h.db.mem c hc)) v
      match hm : (s.db.lits c).filter (fun l => l.var == v) with
      | [] => rw [hm]; simp
      | [x] => rw [hm]; simp
      | x :: y :: r => 
        rw [show (s.db.store c).lits = s.db.lits c from rfl, hm] at this; simp at this
    · intro a ha b hb
      simp only [List.mem_map] at hb
      obtain ⟨_, _, rfl⟩ := hb
      have := h.occLt v a ha; omega
  occVar v i hi d hd := by
    rw [mem_addObj_occ] at hi
    simp only [SDB.addObj] at hd ⊢
    rcases hi with hi | ⟨rfl, hv⟩
    · rw [List.getElem?_append_left (h.occLt v i hi)] at hd
      exact h.occVar v i hi d hd
    · rw [List.getElem?_append_right (by omega)] at hd
      simp at hd; subst hd; exact hv

theorem SOk.init {db : DB} (h : DBOk F db) : SOk F (SDB.init db) := by
  have : ∀ (cs : List Nat) (s : SDB), s.db = db → SOk F s → (∀ c ∈ cs, c ∈ db.clauses) →
      SOk F (cs.foldl SDB.addObj s) := by
    intro cs
    induction cs with
    | nil => intro s _ hs _; exact hs
    | cons c cs ih =>
      intro s e hs hc
      rw [List.foldl_cons]
      exact ih _ e (hs.addObj (by rw [e]; exact hc c (by simp))) (fun d hd => hc d (by simp [hd]))
  exact this db.clauses _ rfl ⟨h, by simp, by simp, by simp, by simp⟩ (fun _ h => h)

theorem init_db (db : DB) : (SDB.init db).db = db := by
  have : ∀ (cs : List Nat) (s : SDB), (cs.foldl SDB.addObj s).db = s.db := by
    intro cs
    induction cs with
    | nil => intro s; rfl
    | cons c cs ih => intro s; rw [List.foldl_cons, ih]; rfl
  exact this _ _

theorem SOk.cleanup {s : SDB} (h : SOk F s) : SOk F s.cleanup where
  db := h.db
  obj := h.obj
  occLt v i hi := h.occLt v i ((List.mem_filter.1 hi).1)
  occNd v := (h.occNd v).sublist List.filter_sublist
  occVar v i hi := h.occVar v i ((List.mem_filter.1 hi).1)

/-- The database changes while the objects stay. -/
theorem SOk.ofDB {s : SDB} (h : SOk F s) {db' : DB} (hd : DBOk F db')
    (hc : ∀ c ∈ s.db.clauses, c ∈ db'.clauses)
    (hl : ∀ c ∈ s.db.clauses, ∀ l, l ∈ db'.lits c ↔ l ∈ s.db.lits c) :
    SOk F { s with db := db' } where
  db := hd
  obj i c hi := hc c (h.obj i c hi)
  occLt := h.occLt
  occNd := h.occNd
  occVar v i hi c hic := by
    obtain ⟨l, h1, h2⟩ := h.occVar v i hi c hic
    exact ⟨l, (hl c (h.obj i c hic) l).2 h1, h2⟩

theorem SOk.create {s : SDB} (h : SOk F s) {ls : List Lit} {lbd : Nat}
    (hwf : ∀ l ∈ ls, l.var < s.db.nVars) (hnd : (ls.map Lit.var).Nodup) (hent : Entails F ls) :
    SOk F (s.create ls lbd) := by
  unfold SDB.create
  simp only [createClause_id]
  refine SOk.addObj (h.ofDB (h.db.createClause hwf hnd hent) ?_ ?_) ?_
  · intro c hc; simp [hc]
  · intro c hc l
    rw [createClause_lits, if_neg (by have := h.db.mem c hc; omega)]
  · simp

theorem DBExt.create (s : SDB) (ls : List Lit) (lbd : Nat) : DBExt s.db (s.create ls lbd).db :=
  DBExt.createClause s.db ls lbd false

/-- Values of `remove`. -/
theorem remove_eq {s s' : SDB} {i : Nat} (he : s.remove i = some s') :
    ∃ c, s.obj[i]? = some (some c) ∧
      s' = { s with db := s.db.removeClause c, obj := s.obj.set i none } := by
  simp only [SDB.remove] at he
  split at he
  · rename_i c hc
    exact ⟨c, hc, by simpa using he.symm⟩
  · simp at he

theorem set_obj {α : Type} {xs : List α} {i j : Nat} {x y : α} (h : (xs.set i x)[j]? = some y) :
    (i = j ∧ y = x) ∨ (i ≠ j ∧ xs[j]? = some y) := by
  rw [List.getElem?_set] at h
  split at h
  · rename_i e
    split at h
    · left; exact ⟨e, by simpa using h.symm⟩
    · simp at h
  · rename_i e; exact Or.inr ⟨e, h⟩

theorem SOk.remove {s s' : SDB} (h : SOk F s) {i : Nat} (he : s.remove i = some s') :
    SOk F s' ∧ DBExt s.db s'.db := by
  obtain ⟨c, hc, rfl⟩ := remove_eq he
  refine ⟨?_, DBExt.removeClause ..⟩
  have h1 : SOk F { s with db := s.db.removeClause c } :=
    h.ofDB (h.db.removeClause (h.db.mem c (h.obj i c hc))) (by simp) (by simp)
  refine ⟨h1.db, ?_, ?_, h1.occNd, ?_⟩
  · intro j d hj
    rcases set_obj hj with ⟨_, h2⟩ | ⟨_, h2⟩
    · simp at h2
    · exact h1.obj j d h2
  · intro v j hj
    simp only [List.length_set]
    exact h1.occLt v j hj
  · intro v j hj d hd
    rcases set_obj hd with ⟨_, h2⟩ | ⟨_, h2⟩
    · simp at h2
    · exact h1.occVar v j hj d h2

theorem strengthen_eq {s s' : SDB} {i : Nat} {l : Lit} (he : s.strengthen i l = some s') :
    ∃ c, s.obj[i]? = some (some c) ∧
      s' = { db := (s.db.strengthenClause c l).1, obj := s.obj.set i (some s.db.next),
             occ := upd s.occ l.var ((s.occ l.var).filter (fun j => j != i)) } := by
  simp only [SDB.strengthen] at he
  split at he
  · rename_i c hc
    refine ⟨c, hc, ?_⟩
    simpa [strengthenClause_eq] using he.symm
  · simp at he

theorem strengthenClause_lits (db : DB) (c : Nat) (l : Lit) (d : Nat) :
    (db.strengthenClause c l).1.lits d =
      if d = db.next then (db.lits c).filter (fun x => x != l) else db.lits d := by
  rw [strengthenClause_eq]
  simp only [removeClause_lits, createClause_lits]

@[simp] theorem strengthenClause_clauses (db : DB) (c : Nat) (l : Lit) :
    (db.strengthenClause c l).1.clauses = db.clauses ++ [db.next] := by
  rw [strengthenClause_eq]; simp

theorem mem_upd_filter {occ : Nat → List Nat} {u v i j : Nat}
    (h : j ∈ upd occ u ((occ u).filter (fun j => j != i)) v) : j ∈ occ v ∧ (v = u → j ≠ i) := by
  rw [upd_apply] at h
  split at h
  · rename_i e; subst e
    obtain ⟨h1, h2⟩ := List.mem_filter.1 h
    exact ⟨h1, fun _ => by simpa using h2⟩
  · rename_i e; exact ⟨h, fun e' => (e e').elim⟩

theorem SOk.strengthen {s s' : SDB} (h : SOk F s) {i : Nat} {l : Lit}
    (he : s.strengthen i l = some s')
    (hent : ∀ c, s.obj[i]? = some (some c) → Entails F ((s.db.lits c).filter (fun x => x != l))) :
    SOk F s' ∧ DBExt s.db s'.db := by
  obtain ⟨c, hc, rfl⟩ := strengthen_eq he
  have hlt := h.lt hc
  have hdb := h.db.strengthenClause hlt (hent c hc)
  refine ⟨⟨hdb, ?_, ?_, ?_, ?_⟩, DBExt.strengthenClause ..⟩
  · intro j d hj
    rw [strengthenClause_clauses]
    rcases set_obj hj with ⟨_, h2⟩ | ⟨_, h2⟩
    · simp at h2; subst h2; simp
    · have := h.obj j d h2; simp [this]
  · intro v j hj
    simp only [List.length_set]
    exact h.occLt v j (mem_upd_filter hj).1
  · intro v
    simp only
    rw [upd_apply]
    split
    · exact (h.occNd _).sublist List.filter_sublist
    · exact h.occNd v
  · intro v j hj d hd
    obtain ⟨h1, h2⟩ := mem_upd_filter hj
    rcases set_obj hd with ⟨e, h3⟩ | ⟨e, h3⟩
    · simp at h3; subst h3; subst e
      obtain ⟨x, hx, hxv⟩ := h.occVar v i h1 c hc
      refine ⟨x, ?_, hxv⟩
      rw [strengthenClause_lits, if_pos rfl, List.mem_filter]
      refine ⟨hx, ?_⟩
      simp only [bne_iff_ne, ne_eq]
      rintro rfl
      exact h2 hxv.symm rfl
    · obtain ⟨x, hx, hxv⟩ := h.occVar v j h1 d h3
      refine ⟨x, ?_, hxv⟩
      rw [strengthenClause_lits, if_neg (by have := h.lt h3; omega)]
      exact hx

/-! ### The subsumption test -/

theorem subLit_spec {c : Lit} {ret r : Option Lit} {ds : List Lit} (h : subLit c ret ds = some r) :
    (c ∈ ds ∧ r = ret) ∨ (c.neg ∈ ds ∧ ret = none ∧ r = some c) := by
  induction ds with
  | nil => simp [subLit] at h
  | cons d ds ih =>
    rw [subLit] at h
    split at h
    · rename_i e; subst e
      left; exact ⟨by simp, by simpa using h.symm⟩
    · split at h
      · rename_i e
        right
        refine ⟨?_, e.1, by simpa using h.symm⟩
        rw [e.2]; simp
      · rcases ih h with ⟨h1, h2⟩ | ⟨h1, h2⟩
        · exact Or.inl ⟨by simp [h1], h2⟩
        · exact Or.inr ⟨by simp [h1], h2⟩

theorem subLoop_spec {other : List Lit} : ∀ {cs : List Lit} {ret r : Option Lit},
    subLoop other cs ret = some r →
    (∀ l, ret = some l → r = some l) ∧
    (∀ l, r = some l → ret = some l ∨ (l ∈ cs ∧ l.neg ∈ other)) ∧
    (∀ c ∈ cs, c ∈ other ∨ r = some c)
  | [], ret, r, h => by
    simp only [subLoop, Option.some.injEq] at h
    subst h
    exact ⟨fun _ h => h, fun _ h => Or.inl h, by simp⟩
  | c :: cs, ret, r, h => by
    rw [subLoop] at h
    split at h
    · simp at h
    · rename_i ret' e
      obtain ⟨h1, h2, h3⟩ := subLoop_spec h
      rcases subLit_spec e with ⟨e1, e2⟩ | ⟨e1, e2, e3⟩
      · subst e2
        refine ⟨h1, fun l hl => ?_, fun d hd => ?_⟩
        · rcases h2 l hl with h | ⟨h, h'⟩
          · exact Or.inl h
          · exact Or.inr ⟨by simp [h], h'⟩
        · rcases List.mem_cons.1 hd with rfl | hd
          · exact Or.inl e1
          · exact h3 d hd
      · subst e2; subst e3
        have hr := h1 c rfl
        refine ⟨by simp, fun l hl => ?_, fun d hd => ?_⟩
        · rw [hr] at hl
          simp at hl; subst hl
          exact Or.inr ⟨by simp, e1⟩
        · rcases List.mem_cons.1 hd with rfl | hd
          · exact Or.inr hr
          · exact h3 d hd

theorem subsumes_none {A B : List Lit} (h : subsumes A B = some none) : ∀ l ∈ A, l ∈ B := by
  rw [subsumes] at h
  split at h
  · obtain ⟨_, _, h3⟩ := subLoop_spec h
    intro l hl
    simpa using h3 l hl
  · simp at h

theorem subsumes_some {A B : List Lit} {l : Lit} (h : subsumes A B = some (some l)) :
    l ∈ A ∧ l.neg ∈ B ∧ (∀ m ∈ A, m ≠ l → m ∈ B) ∧ A.length ≤ B.length := by
  rw [subsumes] at h
  split at h
  · rename_i hc
    obtain ⟨_, h2, h3⟩ := subLoop_spec h
    have h2 := h2 l rfl
    simp only [reduceCtorEq, false_or] at h2
    refine ⟨h2.1, h2.2, fun m hm hne => ?_, hc.2⟩
    rcases h3 m hm with h | h
    · exact h
    · simp at h; exact (hne h.symm).elim
  · simp at h

/-! ### Steps of subsumption -/

/-- Elementary steps of subsumption with their justification. -/
inductive SStep : SDB → SDB → Prop
  | copy {s : SDB} {j cj : Nat} (h : s.obj[j]? = some (some cj)) : SStep s (s.create (s.db.lits cj))
  | remove {s s' : SDB} {i ci j cj : Nat} (he : s.remove i = some s')
      (hi : s.obj[i]? = some (some ci)) (hj : s.obj[j]? = some (some cj)) (hij : j ≠ i)
      (hsub : ∀ l ∈ s.db.lits cj, l ∈ s.db.lits ci)
      (hw : (s.db.store cj).weight = 0 ∨ (s.db.store ci).weight ≠ 0 ∨
        (s.db.lits cj).length < 3) : SStep s s'
  | strengthen {s s' : SDB} {i ci j cj : Nat} {l : Lit} (he : s.strengthen i l = some s')
      (hi : s.obj[i]? = some (some ci)) (hj : s.obj[j]? = some (some cj)) (hij : j ≠ i)
      (hl : l.neg ∈ s.db.lits cj) (hmem : l ∈ s.db.lits ci) (hlen : 1 < (s.db.lits ci).length)
      (hsub : ∀ m ∈ s.db.lits cj, m ≠ l.neg → m ∈ s.db.lits ci) : SStep s s'

/-- Sequences of steps. -/
inductive SSteps : SDB → SDB → Prop
  | refl (s) : SSteps s s
  | cons {s t u} (h : SStep s t) (h' : SSteps t u) : SSteps s u

theorem SSteps.trans {s t u : SDB} (h : SSteps s t) (h' : SSteps t u) : SSteps s u := by
  induction h with
  | refl => exact h'
  | cons a _ ih => exact .cons a (ih h')

theorem entails_strengthen {A B : List Lit} {l : Lit} (hA : Entails F A) (hB : Entails F B)
    (hnd : (A.map Lit.var).Nodup) (hl : l.neg ∈ A) (hsub : ∀ m ∈ A, m ≠ l.neg → m ∈ B) :
    Entails F (B.filter (fun x => x != l)) := by
  intro a ha
  obtain ⟨x, hx, hxa⟩ := hB a ha
  by_cases hxl : x = l
  · obtain ⟨y, hy, hya⟩ := hA a ha
    have hyl : y ≠ l.neg := by
      rintro rfl
      rw [Lit.holds_neg] at hya
      subst hxl; exact hya hxa
    refine ⟨y, List.mem_filter.2 ⟨hsub y hy hyl, ?_⟩, hya⟩
    simp only [bne_iff_ne, ne_eq]
    rintro rfl
    have : ∀ (ls : List Lit), (ls.map Lit.var).Nodup → y ∈ ls → y.neg ∈ ls → False := by
      intro ls
      induction ls with
      | nil => simp
      | cons z zs ih =>
        intro hn h1 h2
        simp only [List.map_cons, List.nodup_cons] at hn
        simp only [List.mem_cons] at h1 h2
        rcases h1 with rfl | h1
        · rcases h2 with h2 | h2
          · exact Lit.neg_ne _ h2
          · exact hn.1 (List.mem_map.2 ⟨_, h2, by simp⟩)
        · rcases h2 with h2 | h2
          · exact hn.1 (List.mem_map.2 ⟨_, h1, by rw [← h2]; simp⟩)
          · exact ih hn.2 h1 h2
    exact this A hnd hy hl
  · exact ⟨x, List.mem_filter.2 ⟨hx, by simpa using hxl⟩, hxa⟩

theorem SStep.sound {s s' : SDB} (h : SStep s s') (hs : SOk F s) : SOk F s' ∧ DBExt s.db s'.db := by
  cases h with
  | copy h =>
    have hlt := hs.lt h
    exact ⟨hs.create (hs.db.wf _ hlt) (hs.db.nd _ hlt) (hs.db.ent _ hlt), DBExt.create ..⟩
  | remove he => exact hs.remove he
  | strengthen he hi hj hij hl _ hlen hsub =>
    refine hs.strengthen he ?_
    intro c hc
    have : c = _ := Option.some.inj (Option.some.inj (hc.symm.trans hi))
    subst this
    exact entails_strengthen (hs.db.ent _ (hs.lt hj)) (hs.db.ent _ (hs.lt hi))
      (hs.db.nd _ (hs.lt hj)) hl hsub

theorem SSteps.sound {s s' : SDB} (h : SSteps s s') (hs : SOk F s) :
    SOk F s' ∧ DBExt s.db s'.db := by
  induction h with
  | refl => exact ⟨hs, DBExt.refl _⟩
  | cons a _ ih =>
    obtain ⟨h1, h2⟩ := a.sound hs
    obtain ⟨h3, h4⟩ := ih h1
    exact ⟨h3, h2.trans h4⟩

/-- Two objects hold complementary unit clauses. -/
def Clash (s : SDB) : Prop :=
  ∃ (i j ci cj : Nat) (u : Lit), s.obj[i]? = some (some ci) ∧ s.obj[j]? = some (some cj) ∧
    s.db.lits ci = [u] ∧ s.db.lits cj = [u.neg]

theorem Clash.refutes {s : SDB} (h : Clash s) (hs : SOk F s) : Entails F [] := by
  obtain ⟨i, j, ci, cj, u, h1, h2, h3, h4⟩ := h
  intro a ha
  have e1 := hs.db.ent ci (hs.lt h1) a ha
  have e2 := hs.db.ent cj (hs.lt h2) a ha
  rw [show (s.db.store ci).lits = s.db.lits ci from rfl, h3] at e1
  rw [show (s.db.store cj).lits = s.db.lits cj from rfl, h4] at e2
  obtain ⟨x, hx, hxa⟩ := e1
  obtain ⟨y, hy, hya⟩ := e2
  simp at hx hy; subst hx; subst hy
  rw [Lit.holds_neg] at hya
  exact (hya hxa).elim

theorem length_le_one {ls : List Lit} {l : Lit} (h : ls.length ≤ 1) (hl : l ∈ ls) : ls = [l] := by
  match ls with
  | [] => simp at hl
  | [x] => simp at hl; subst hl; rfl
  | x :: y :: r => simp at h

theorem remove_obj {s s' : SDB} {i j : Nat} (he : s.remove i = some s')
    (h : s.obj[j]? = some none) : s'.obj[j]? = some none := by
  obtain ⟨c, hc, rfl⟩ := remove_eq he
  simp only [List.getElem?_set]
  split
  · subst_vars; rw [hc] at h; simp at h
  · exact h

theorem create_obj (s : SDB) (ls : List Lit) (lbd : Nat) :
    (s.create ls lbd).obj = s.obj ++ [some s.db.next] := by
  simp [SDB.create, SDB.addObj]

theorem create_db (s : SDB) (ls : List Lit) (lbd : Nat) :
    (s.create ls lbd).db = (s.db.createClause ls lbd).1 := rfl

theorem subsumeScan_steps {before : Nat → Nat → Bool} {start : Nat} :
    ∀ (os : List Nat) (s : SDB) (cur : Nat), SOk F s → (cur = start ∨ s.obj[start]? = some none) →
      ∀ s' out, subsumeScan before start os s cur = some (s', out) →
      SSteps s s' ∧ (out = .unsat → Clash s')
  | [], s, cur, _, _, s', out, he => by
    simp only [subsumeScan, Option.some.injEq, Prod.mk.injEq] at he
    obtain ⟨rfl, rfl⟩ := he
    exact ⟨.refl _, by simp⟩
  | o :: os, s, cur, hs, hst, s', out, he => by
    rw [subsumeScan] at he
    split at he
    · simp at he
    · exact subsumeScan_steps os s cur hs hst s' out he
    · rename_i oc hoc
      split at he
      · exact subsumeScan_steps os s cur hs hst s' out he
      · rename_i hne
        split at he
        · rename_i cc hcc
          split at he
          · exact subsumeScan_steps os s cur hs hst s' out he
          · rename_i hsub
            have hsub := subsumes_none hsub
            -- plain removal of `o`
            have plain : (s.db.store cc).weight = 0 ∨ (s.db.store oc).weight ≠ 0 ∨
                (s.db.lits cc).length < 3 →
                (match s.remove o with
                  | none => none
                  | some s => subsumeScan before start os s cur) = some (s', out) →
                SSteps s s' ∧ (out = .unsat → Clash s') := by
              intro hw he
              split at he
              · simp at he
              · rename_i s1 hs1
                have st : SStep s s1 := .remove hs1 hoc hcc (fun e => hne e.symm) hsub hw
                obtain ⟨h1, h2⟩ := subsumeScan_steps os s1 cur (st.sound hs).1
                  (hst.imp id (remove_obj hs1)) s' out he
                exact ⟨.cons st h1, h2⟩
            dsimp only at he
            by_cases hcond : (s.db.lits cc).length = (s.db.lits oc).length ∧
                ((s.db.store cc).weight < (s.db.store oc).weight ∨
                  ((s.db.store cc).weight = (s.db.store oc).weight ∧ before cc oc = true))
            · rw [if_pos hcond] at he
              exact plain (by omega) he
            · rw [if_neg hcond] at he
              by_cases hp : ((s.db.store oc).isPersistent && (s.db.store cc).isLearnt) = true
              · rw [if_pos hp] at he
                split at he
                · simp at he
                · rename_i s1 hs1
                  split at he
                  · simp at he
                  · rename_i s2 hs2
                    have hcs : cur = start := by
                      rcases hst with h | h
                      · exact h
                      · obtain ⟨c, hc, _⟩ := remove_eq hs1
                        rw [create_obj, List.getElem?_append_left
                          (List.getElem?_eq_some_iff.1 h).1, h] at hc
                        simp at hc
                    subst hcs
                    obtain ⟨c, hc, e1⟩ := remove_eq hs1
                    have hcl := (List.getElem?_eq_some_iff.1 hcc).1
                    have hol := (List.getElem?_eq_some_iff.1 hoc).1
                    have hc' : c = cc := by
                      rw [create_obj, List.getElem?_append_left hcl, hcc] at hc
                      exact (Option.some.inj (Option.some.inj hc)).symm
                    subst hc'
                    have hnew : (s.create (s.db.lits c)).obj[s.obj.length]? =
                        some (some s.db.next) := by
                      rw [create_obj]; simp
                    have hwnew : ((s.create (s.db.lits c)).db.store s.db.next).weight = 0 := by
                      rw [create_db]; simp
                    have hlnew : (s.create (s.db.lits c)).db.lits s.db.next = s.db.lits c := by
                      rw [create_db, createClause_lits, if_pos rfl]
                    have st1 : SStep (s.create (s.db.lits c)) s1 :=
                      .remove hs1 hc hnew (by omega) (by
                        rw [hlnew]
                        intro l hl
                        rw [create_db, createClause_lits]
                        split
                        · exact hl
                        · exact hl) (Or.inl hwnew)
                    have ho1 : s1.obj[o]? = some (some oc) := by
                      rw [e1]
                      simp only [List.getElem?_set]
                      rw [if_neg (fun e => hne e.symm), create_obj, List.getElem?_append_left hol, hoc]
                    have hn1 : s1.obj[s.obj.length]? = some (some s.db.next) := by
                      rw [e1]
                      simp only [List.getElem?_set]
                      rw [if_neg (by omega), hnew]
                    have hw1 : (s1.db.store s.db.next).weight = 0 ∨
                        (s1.db.store oc).weight ≠ 0 ∨ (s1.db.lits s.db.next).length < 3 := by
                      rw [e1]
                      simp only [removeClause_store]
                      have := hs.lt hcc
                      rw [upd_ne _ _ (show s.db.next ≠ c by omega)]; exact Or.inl hwnew
                    have hsub1 : ∀ l ∈ s1.db.lits s.db.next, l ∈ s1.db.lits oc := by
                      rw [e1]
                      simp only [removeClause_lits]
                      rw [hlnew]
                      intro l hl
                      rw [create_db, createClause_lits]
                      split
                      · exact hl
                      · exact hsub l hl
                    have st2 : SStep s1 s2 := .remove hs2 ho1 hn1 (by omega) hsub1 hw1
                    have hnone : s2.obj[cur]? = some none := by
                      apply remove_obj hs2
                      rw [e1]
                      simp only [List.getElem?_set, if_true]
                      rw [create_obj]
                      rw [if_pos (by simp; omega)]
                    have ok1 := ((SStep.copy hcc).sound hs).1
                    have ok2 := (st2.sound (st1.sound ok1).1).1
                    obtain ⟨h1, h2⟩ := subsumeScan_steps os s2 s.obj.length ok2 (Or.inr hnone) s' out he
                    exact ⟨.cons (.copy hcc) (.cons st1 (.cons st2 h1)), h2⟩
              · rw [if_neg hp] at he
                refine plain ?_ he
                simp only [Cls.isPersistent, Cls.isLearnt, Bool.and_eq_true, beq_iff_eq,
                  decide_eq_true_eq, not_and] at hp
                by_cases h : (s.db.store oc).weight = 0
                · have := hp h; omega
                · exact Or.inr (Or.inl h)
          · rename_i l hsub
            obtain ⟨h1, h2, h3, h4⟩ := subsumes_some hsub
            split at he
            · rename_i hlen
              split at he
              · simp at he
              · rename_i s1 hs1
                simp only [Option.some.injEq, Prod.mk.injEq] at he
                obtain ⟨rfl, rfl⟩ := he
                refine ⟨.cons (.strengthen hs1 hoc hcc (fun e => hne e.symm) (by simpa using h1)
                  h2 hlen (fun m hm hml => h3 m hm (by simpa using hml))) (.refl _), by simp⟩
            · rename_i hlen
              simp only [Option.some.injEq, Prod.mk.injEq] at he
              obtain ⟨rfl, rfl⟩ := he
              refine ⟨.refl _, fun _ => ⟨cur, o, cc, oc, l, hcc, hoc, ?_, ?_⟩⟩
              · exact length_le_one (by omega) h1
              · exact length_le_one (by omega) h2
        · simp at he

theorem subsumeClause_steps {before : Nat → Nat → Bool} :
    ∀ (fuel : Nat) (s : SDB) (i : Nat), SOk F s → ∀ s' b, subsumeClause before fuel s i = some (s', b) →
      SSteps s s' ∧ (b = false → Clash s')
  | 0, s, i, _, s', b, he => by simp [subsumeClause] at he
  | fuel + 1, s, i, hs, s', b, he => by
    rw [subsumeClause] at he
    split at he
    · split at he
      · simp at he
      · split at he
        · simp at he
        · rename_i s1 hs1
          simp only [Option.some.injEq, Prod.mk.injEq] at he
          obtain ⟨rfl, rfl⟩ := he
          exact ⟨(subsumeScan_steps _ _ _ hs (Or.inl rfl) _ _ hs1).1, by simp⟩
        · rename_i s1 hs1
          simp only [Option.some.injEq, Prod.mk.injEq] at he
          obtain ⟨rfl, rfl⟩ := he
          have := subsumeScan_steps _ _ _ hs (Or.inl rfl) _ _ hs1
          exact ⟨this.1, fun _ => this.2 rfl⟩
        · rename_i s1 j hs1
          have h1 := (subsumeScan_steps _ _ _ hs (Or.inl rfl) _ _ hs1).1
          obtain ⟨h2, h3⟩ := subsumeClause_steps fuel s1 j (h1.sound hs).1 s' b he
          exact ⟨h1.trans h2, h3⟩
    · simp at he

theorem unitScan_steps {i : Nat} {u : Lit} :
    ∀ (os : List Nat) (s : SDB) (ci : Nat), SOk F s → s.obj[i]? = some (some ci) →
      s.db.lits ci = [u] → os.Nodup →
      (∀ o ∈ os, ∀ c, s.obj[o]? = some (some c) → ∃ l ∈ s.db.lits c, l.var = u.var) →
      ∀ s' b, unitScan i u os s = some (s', b) → SSteps s s' ∧ (b = false → Clash s')
  | [], s, ci, _, _, _, _, _, s', b, he => by
    simp only [unitScan, Option.some.injEq, Prod.mk.injEq] at he
    obtain ⟨rfl, rfl⟩ := he
    exact ⟨.refl _, by simp⟩
  | o :: os, s, ci, hs, hi, hl, hn, hv, s', b, he => by
    have hv' : ∀ x ∈ os, ∀ c, s.obj[x]? = some (some c) → ∃ l ∈ s.db.lits c, l.var = u.var :=
      fun x hx => hv x (by simp [hx])
    have hn' := (List.nodup_cons.1 hn).2
    have hno := (List.nodup_cons.1 hn).1
    rw [unitScan] at he
    split at he
    · simp at he
    · exact unitScan_steps os s ci hs hi hl hn' hv' s' b he
    · rename_i oc hoc
      split at he
      · exact unitScan_steps os s ci hs hi hl hn' hv' s' b he
      · rename_i hne
        -- continuing after a step on `o`
        have next : ∀ s1 : SDB, SStep s s1 → s1.obj = s.obj.set o s1.obj[o]?.join →
            unitScan i u os s1 = some (s', b) → SSteps s s' ∧ (b = false → Clash s') := by
          intro s1 hst ho he
          obtain ⟨k1, k2⟩ := hst.sound hs
          have hobj : ∀ x, x ≠ o → s1.obj[x]? = s.obj[x]? := by
            intro x hx
            rw [ho, List.getElem?_set, if_neg (fun e => hx e.symm)]
          obtain ⟨r1, r2⟩ := unitScan_steps os s1 ci k1 (by rw [hobj i (fun e => hne e.symm), hi])
            (by rw [k2.lits ci (hs.lt hi), hl]) hn'
            (by
              intro x hx c hc
              rw [hobj x (fun e => hno (e ▸ hx))] at hc
              rw [k2.lits c (hs.lt hc)]
              exact hv' x hx c hc) s' b he
          exact ⟨.cons hst r1, r2⟩
        split at he
        · rename_i hu
          split at he
          · simp at he
          · rename_i s1 hs1
            refine next s1 (.remove hs1 hoc hi (fun e => hne e.symm) ?_ ?_) ?_ he
            · rw [hl]; simpa using hu
            · rw [hl]; simp
            · obtain ⟨c, hc, rfl⟩ := remove_eq hs1
              have := (List.getElem?_eq_some_iff.1 hc).1
              simp [this]
        · rename_i hu
          have hun : u.neg ∈ s.db.lits oc := by
            obtain ⟨l, h1, h2⟩ := hv o (by simp) oc hoc
            rcases Lit.eq_or_neg_of_var h2 with rfl | rfl
            · exact (hu h1).elim
            · exact h1
          split at he
          · rename_i hlen
            simp only [Option.some.injEq, Prod.mk.injEq] at he
            obtain ⟨rfl, rfl⟩ := he
            exact ⟨.refl _, fun _ => ⟨i, o, ci, oc, u, hi, hoc, hl,
              length_le_one (by omega) hun⟩⟩
          · rename_i hlen
            split at he
            · simp at he
            · rename_i s1 hs1
              have hlen' : 1 < (s.db.lits oc).length := by
                have : 0 < (s.db.lits oc).length := List.length_pos_of_mem hun
                omega
              refine next s1 (.strengthen hs1 hoc hi (fun e => hne e.symm) ?_ hun hlen' ?_) ?_ he
              · rw [hl]; simp
              · rw [hl]; simp +contextual
              · obtain ⟨c, hc, rfl⟩ := strengthen_eq hs1
                have := (List.getElem?_eq_some_iff.1 hc).1
                simp [this]

theorem subsumeStep_steps {before : Nat → Nat → Bool} {fuel : Nat} {s : SDB} {i : Nat} (hs : SOk F s)
    {s' : SDB} {b : Bool} (he : subsumeStep before fuel s i = some (s', b)) :
    SSteps s s' ∧ (b = false → Clash s') := by
  rw [subsumeStep] at he
  split at he
  · simp at he
  · simp only [Option.some.injEq, Prod.mk.injEq] at he
    obtain ⟨rfl, rfl⟩ := he
    exact ⟨.refl _, by simp⟩
  · rename_i c hc
    split at he
    · rename_i u hu
      exact unitScan_steps _ s c hs hc hu (hs.occNd _) (hs.occVar _) s' b he
    · exact subsumeClause_steps fuel s i hs s' b he

theorem subsumeList_steps {before : Nat → Nat → Bool} {fuel : Nat} :
    ∀ (is : List Nat) (s : SDB), SOk F s → ∀ s' b, subsumeList before fuel is s = some (s', b) →
      SSteps s s' ∧ (b = false → Clash s')
  | [], s, _, s', b, he => by
    simp only [subsumeList, Option.some.injEq, Prod.mk.injEq] at he
    obtain ⟨rfl, rfl⟩ := he
    exact ⟨.refl _, by simp⟩
  | i :: is, s, hs, s', b, he => by
    rw [subsumeList] at he
    split at he
    · simp at he
    · rename_i s1 hs1
      simp only [Option.some.injEq, Prod.mk.injEq] at he
      obtain ⟨rfl, rfl⟩ := he
      exact subsumeStep_steps hs hs1
    · rename_i s1 hs1
      obtain ⟨h1, _⟩ := subsumeStep_steps hs hs1
      obtain ⟨h2, h3⟩ := subsumeList_steps is s1 (h1.sound hs).1 s' b he
      exact ⟨h1.trans h2, h3⟩

theorem subsumeAll_steps {before : Nat → Nat → Bool} {fuel : Nat} {s s' : SDB} {b : Bool}
    (hs : SOk F s) (he : subsumeAll before fuel s = some (s', b)) :
    SSteps s s' ∧ (b = false → Clash s') :=
  subsumeList_steps _ s hs s' b he

end Candy
