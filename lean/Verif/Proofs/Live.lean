import Verif.Proofs.Asym
import Verif.Proofs.Elim

/-! The clauses that are not marked deleted, and how simplification changes them. -/

namespace Candy

variable {F : CNF} {V : Nat → Prop} {s s' : SDB}

/-- A clause of the database that is not marked deleted. -/
def LiveId (db : DB) (c : Nat) : Prop := c ∈ db.clauses ∧ (db.store c).weight ≠ 65535

/-- The clauses of the database that are not marked deleted. -/
def DB.cnf (db : DB) : CNF := (db.clauses.filter fun c => !(db.store c).isDeleted).map db.lits

theorem mem_cnf {db : DB} {K : Clause} : K ∈ db.cnf ↔ ∃ c, LiveId db c ∧ db.lits c = K := by
  simp only [DB.cnf, List.mem_map, List.mem_filter, LiveId, Cls.isDeleted, Cls.deletedWeight,
    Bool.not_eq_true', beq_eq_false_iff_ne, ne_eq]

/-- Relation between the objects of simplification and the clauses of the database, for a database
without learnt clauses. `V` are the variables assigned at level 0: the unit clauses created for
them have no object. -/
structure LOk (V : Nat → Prop) (s : SDB) : Prop where
  zero : ∀ c ∈ s.db.clauses, (s.db.store c).weight = 0 ∨ (s.db.store c).weight = 65535
  inj : ∀ i j c : Nat, s.obj[i]? = some (some c) → s.obj[j]? = some (some c) → i = j
  alive : ∀ i c : Nat, s.obj[i]? = some (some c) → (s.db.store c).weight = 0
  occAll : ∀ i c : Nat, s.obj[i]? = some (some c) → ∀ l ∈ s.db.lits c, i ∈ s.occ l.var
  listed : ∀ c, LiveId s.db c → (∃ i : Nat, s.obj[i]? = some (some c)) ∨
    ∃ l, s.db.lits c = [l] ∧ V l.var

theorem LOk.mono {V' : Nat → Prop} (h : LOk V s) (hV : ∀ v, V v → V' v) : LOk V' s where
  zero := h.zero
  inj := h.inj
  alive := h.alive
  occAll := h.occAll
  listed c hc := (h.listed c hc).imp id fun ⟨l, h1, h2⟩ => ⟨l, h1, hV _ h2⟩

theorem LOk.liveId (h : LOk V s) (hs : SOk F s) {i c : Nat} (hi : s.obj[i]? = some (some c)) :
    LiveId s.db c := ⟨hs.obj i c hi, by rw [h.alive i c hi]; decide⟩

theorem var_inj {ls : List Lit} (h : (ls.map Lit.var).Nodup) {x y : Lit} (hx : x ∈ ls) (hy : y ∈ ls)
    (hv : x.var = y.var) : x = y := by
  induction ls with
  | nil => simp at hx
  | cons z zs ih =>
    simp only [List.map_cons, List.nodup_cons] at h
    rcases List.mem_cons.1 hx with hx | hx
    · subst hx
      rcases List.mem_cons.1 hy with hy | hy
      · exact hy.symm
      · exact (h.1 (List.mem_map.2 ⟨y, hy, hv.symm⟩)).elim
    · rename_i hx'
      rcases List.mem_cons.1 hy with hy' | hy'
      · exact (h.1 (List.mem_map.2 ⟨x, hx, hv.trans (by rw [hy'])⟩)).elim
      · exact ih h.2 hx hy'

/-! ### Elementary operations -/

theorem addObj_obj {i c d : Nat} :
    (s.addObj c).obj[i]? = some (some d) ↔
      s.obj[i]? = some (some d) ∨ (i = s.obj.length ∧ d = c) := by
  simp only [SDB.addObj]
  by_cases hi : i < s.obj.length
  · rw [List.getElem?_append_left hi]
    constructor
    · exact Or.inl
    · rintro (h | ⟨h, _⟩)
      · exact h
      · omega
  · rw [List.getElem?_append_right (by omega)]
    have hn : s.obj[i]? = none := List.getElem?_eq_none (by omega)
    rw [hn]
    constructor
    · intro h
      have := List.getElem?_eq_some_iff.1 h
      obtain ⟨h1, h2⟩ := this
      simp at h1
      refine Or.inr ⟨by omega, ?_⟩
      simp at h2; exact h2.symm
    · rintro (h | ⟨rfl, rfl⟩)
      · simp at h
      · simp

theorem create_live (s : SDB) (ls : List Lit) :
    (∀ d, LiveId (s.create ls).db d ↔ LiveId s.db d ∨ d = s.db.next) ∧
    (∀ d, (s.create ls).db.lits d = if d = s.db.next then ls else s.db.lits d) := by
  constructor
  · intro d
    simp only [LiveId, create_db, createClause_clauses, createClause_store, List.mem_append,
      List.mem_singleton]
    by_cases hd : d = s.db.next
    · subst hd
      simp
    · rw [upd_ne _ _ hd]
      simp [hd]
  · intro d; rw [create_db, createClause_lits]

theorem LOk.create (h : LOk V s) (hs : SOk F s) (ls : List Lit) : LOk V (s.create ls) := by
  have hobj : ∀ i d : Nat, (s.create ls).obj[i]? = some (some d) ↔
      s.obj[i]? = some (some d) ∨ (i = s.obj.length ∧ d = s.db.next) := by
    intro i d
    have := addObj_obj (s := { s with db := (s.db.createClause ls).1 }) (i := i) (c := s.db.next) (d := d)
    unfold SDB.create
    simp only [createClause_id]
    exact this
  have hlt : ∀ i c : Nat, s.obj[i]? = some (some c) → c ≠ s.db.next := fun i c hi => by
    have := hs.lt hi; omega
  refine ⟨?_, ?_, ?_, ?_, ?_⟩
  · intro c hc
    rw [create_db, createClause_clauses, List.mem_append, List.mem_singleton] at hc
    rw [create_db, createClause_store]
    by_cases hd : c = s.db.next
    · subst hd; left; simp
    · rw [upd_ne _ _ hd]; exact h.zero c (hc.resolve_right hd)
  · intro i j c hi hj
    rcases (hobj i c).1 hi with hi | ⟨rfl, rfl⟩
    · rcases (hobj j c).1 hj with hj | ⟨rfl, rfl⟩
      · exact h.inj i j c hi hj
      · exact (hlt i _ hi rfl).elim
    · rcases (hobj j s.db.next).1 hj with hj | ⟨rfl, _⟩
      · exact (hlt j _ hj rfl).elim
      · rfl
  · intro i c hi
    rw [create_db, createClause_store]
    rcases (hobj i c).1 hi with hi | ⟨rfl, rfl⟩
    · rw [upd_ne _ _ (hlt i c hi)]; exact h.alive i c hi
    · simp
  · intro i c hi l hl
    rw [(create_live s ls).2] at hl
    have hocc : ∀ v j, j ∈ (s.create ls).occ v ↔
        j ∈ s.occ v ∨ (j = s.obj.length ∧ ∃ l ∈ ls, l.var = v) := by
      intro v j
      have := mem_addObj_occ (s := { s with db := (s.db.createClause ls).1 }) (c := s.db.next)
        (v := v) (i := j)
      unfold SDB.create
      simp only [createClause_id]
      rw [this]
      simp only [createClause_lits, if_true]
    rw [hocc]
    rcases (hobj i c).1 hi with hi | ⟨rfl, rfl⟩
    · rw [if_neg (hlt i c hi)] at hl
      exact Or.inl (h.occAll i c hi l hl)
    · rw [if_pos rfl] at hl
      exact Or.inr ⟨rfl, l, hl, rfl⟩
  · intro c hc
    rcases ((create_live s ls).1 c).1 hc with hc | rfl
    · rcases h.listed c hc with ⟨i, hi⟩ | ⟨l, hl, hv⟩
      · exact Or.inl ⟨i, (hobj i c).2 (Or.inl hi)⟩
      · right
        refine ⟨l, ?_, hv⟩
        rw [(create_live s ls).2, if_neg]
        · exact hl
        · have := hs.db.mem c hc.1; omega
    · exact Or.inl ⟨s.obj.length, (hobj _ _).2 (Or.inr ⟨rfl, rfl⟩)⟩

theorem remove_live {i c : Nat} (he : s.remove i = some s') (hi : s.obj[i]? = some (some c)) :
    (∀ d, LiveId s'.db d ↔ LiveId s.db d ∧ d ≠ c) ∧ (∀ d, s'.db.lits d = s.db.lits d) := by
  obtain ⟨c', hc', rfl⟩ := remove_eq he
  have : c' = c := Option.some.inj (Option.some.inj (hc'.symm.trans hi))
  subst this
  constructor
  · intro d
    simp only [LiveId, removeClause_clauses, removeClause_store]
    by_cases hd : d = c'
    · subst hd; simp
    · rw [upd_ne _ _ hd]; simp [hd]
  · intro d; simp

theorem LOk.remove (h : LOk V s) {i : Nat} (he : s.remove i = some s') : LOk V s' := by
  obtain ⟨c, hc, rfl⟩ := remove_eq he
  have hobj : ∀ j d : Nat, (s.obj.set i none)[j]? = some (some d) → s.obj[j]? = some (some d) ∧ j ≠ i := by
    intro j d hj
    rcases set_obj hj with ⟨_, h2⟩ | ⟨h1, h2⟩
    · simp at h2
    · exact ⟨h2, fun e => h1 e.symm⟩
  refine ⟨?_, ?_, ?_, ?_, ?_⟩
  · intro d hd
    simp only [removeClause_clauses, removeClause_store] at hd ⊢
    by_cases hdc : d = c
    · subst hdc; simp
    · rw [upd_ne _ _ hdc]; exact h.zero d hd
  · intro a b d ha hb
    exact h.inj a b d (hobj a d ha).1 (hobj b d hb).1
  · intro a d ha
    obtain ⟨h1, h2⟩ := hobj a d ha
    simp only [removeClause_store]
    rw [upd_ne _ _ (fun e => h2 (by subst e; exact h.inj a i d h1 hc))]
    exact h.alive a d h1
  · intro a d ha l hl
    exact h.occAll a d (hobj a d ha).1 l (by simpa using hl)
  · intro d hd
    obtain ⟨h1, h2⟩ := ((remove_live he hc).1 d).1 hd
    rcases h.listed d h1 with ⟨j, hj⟩ | ⟨l, hl, hv⟩
    · left
      refine ⟨j, ?_⟩
      simp only [List.getElem?_set]
      rw [if_neg]
      · exact hj
      · rintro rfl
        exact h2 (Option.some.inj (Option.some.inj (hj.symm.trans hc)))
    · exact Or.inr ⟨l, by simpa using hl, hv⟩

theorem strengthen_live (h : LOk V s) (hs : SOk F s) {i c : Nat} {l : Lit} (he : s.strengthen i l = some s')
    (hi : s.obj[i]? = some (some c)) :
    (∀ d, LiveId s'.db d ↔ (LiveId s.db d ∧ d ≠ c) ∨ d = s.db.next) ∧
    (∀ d, s'.db.lits d = if d = s.db.next then (s.db.lits c).filter (fun x => x != l) else s.db.lits d) := by
  obtain ⟨c', hc', rfl⟩ := strengthen_eq he
  have : c' = c := Option.some.inj (Option.some.inj (hc'.symm.trans hi))
  subst this
  have hlt := hs.lt hi
  constructor
  · intro d
    simp only [LiveId, strengthenClause_clauses]
    rw [strengthenClause_eq]
    simp only [removeClause_store, createClause_store, List.mem_append, List.mem_singleton]
    by_cases hd : d = c'
    · subst hd
      have : d ≠ s.db.next := by omega
      simp [this]
    · rw [upd_ne _ _ hd]
      by_cases hn : d = s.db.next
      · subst hn
        have hz := h.alive i c' hi
        simp [hz]
      · rw [upd_ne _ _ hn]; simp [hd, hn]
  · intro d; exact strengthenClause_lits _ _ _ _

theorem LOk.strengthen (h : LOk V s) (hs : SOk F s) {i : Nat} {l : Lit}
    (he : s.strengthen i l = some s') (hmem : ∀ c, s.obj[i]? = some (some c) → l ∈ s.db.lits c) :
    LOk V s' := by
  obtain ⟨c, hc, e⟩ := strengthen_eq he
  obtain ⟨hL, hl'⟩ := strengthen_live h hs he hc
  have hlt := hs.lt hc
  have hobj : ∀ j d : Nat, s'.obj[j]? = some (some d) →
      (j = i ∧ d = s.db.next) ∨ (j ≠ i ∧ s.obj[j]? = some (some d)) := by
    intro j d hj
    rw [e] at hj
    rcases set_obj hj with ⟨h1, h2⟩ | ⟨h1, h2⟩
    · simp at h2; exact Or.inl ⟨h1.symm, h2⟩
    · exact Or.inr ⟨fun e => h1 e.symm, h2⟩
  have hw : ∀ d, (s'.db.store d).weight =
      if d = c then 65535 else if d = s.db.next then 0 else (s.db.store d).weight := by
    intro d
    rw [e]
    simp only
    rw [strengthenClause_eq]
    simp only [removeClause_store, createClause_store]
    by_cases hd : d = c
    · subst hd; simp
    · rw [upd_ne _ _ hd, if_neg hd]
      by_cases hn : d = s.db.next
      · subst hn; simp [h.alive i c hc]
      · rw [upd_ne _ _ hn, if_neg hn]
  refine ⟨?_, ?_, ?_, ?_, ?_⟩
  · intro d hd
    rw [hw]
    split
    · exact Or.inr rfl
    · split
      · exact Or.inl rfl
      · rename_i hn
        rw [e] at hd
        simp only [strengthenClause_clauses, List.mem_append, List.mem_singleton] at hd
        exact h.zero d (hd.resolve_right hn)
  · intro a b d ha hb
    rcases hobj a d ha with ⟨rfl, rfl⟩ | ⟨h1, h2⟩
    · rcases hobj b _ hb with ⟨rfl, _⟩ | ⟨_, h2⟩
      · rfl
      · have := hs.lt h2; omega
    · rcases hobj b d hb with ⟨rfl, rfl⟩ | ⟨_, h4⟩
      · have := hs.lt h2; omega
      · exact h.inj a b d h2 h4
  · intro a d ha
    rw [hw]
    rcases hobj a d ha with ⟨rfl, rfl⟩ | ⟨h1, h2⟩
    · rw [if_neg (by omega), if_pos rfl]
    · rw [if_neg (fun e => h1 (by subst e; exact h.inj a i d h2 hc)),
        if_neg (by have := hs.lt h2; omega)]
      exact h.alive a d h2
  · intro a d ha x hx
    rw [hl'] at hx
    have hocc : ∀ v j, j ∈ s'.occ v ↔ j ∈ s.occ v ∧ (v = l.var → j ≠ i) := by
      intro v j
      rw [e]
      simp only [upd_apply]
      split
      · rename_i hv; subst hv
        simp [List.mem_filter]
      · rename_i hv; simp [hv]
    rw [hocc]
    rcases hobj a d ha with ⟨rfl, rfl⟩ | ⟨h1, h2⟩
    · rw [if_pos rfl] at hx
      obtain ⟨hx1, hx2⟩ := List.mem_filter.1 hx
      refine ⟨h.occAll a c hc x hx1, ?_⟩
      intro hv
      have := var_inj (hs.db.nd c hlt) hx1 (hmem c hc) hv
      subst this
      simp at hx2
    · rw [if_neg (by have := hs.lt h2; omega)] at hx
      exact ⟨h.occAll a d h2 x hx, fun _ => h1⟩
  · intro d hd
    rcases (hL d).1 hd with ⟨h1, h2⟩ | rfl
    · rcases h.listed d h1 with ⟨j, hj⟩ | ⟨x, hx, hv⟩
      · left
        refine ⟨j, ?_⟩
        rw [e]
        simp only [List.getElem?_set]
        rw [if_neg]
        · exact hj
        · rintro rfl
          exact h2 (Option.some.inj (Option.some.inj (hj.symm.trans hc)))
      · right
        refine ⟨x, ?_, hv⟩
        rw [hl', if_neg]
        · exact hx
        · have := hs.db.mem d h1.1; omega
    · left
      refine ⟨i, ?_⟩
      rw [e]
      simp only [List.getElem?_set]
      simp [(List.getElem?_eq_some_iff.1 hc).1]

theorem LOk.perm (h : LOk V s) {st : Nat → Cls} (hp : StoreExt s.db.store st) :
    LOk V { s with db := { s.db with store := st } } := by
  have hl : ∀ (c : Nat) (l : Lit), l ∈ (st c).lits ↔ l ∈ s.db.lits c := fun c l => (hp c).1.mem_iff
  refine ⟨?_, h.inj, ?_, ?_, ?_⟩
  · intro c hc; rw [show (st c).weight = _ from (hp c).2]; exact h.zero c hc
  · intro i c hi; rw [show (st c).weight = _ from (hp c).2]; exact h.alive i c hi
  · intro i c hi l hl'; exact h.occAll i c hi l ((hl c l).1 hl')
  · intro c hc
    have hc' : LiveId s.db c := ⟨hc.1, by rw [← (hp c).2]; exact hc.2⟩
    rcases h.listed c hc' with h1 | ⟨l, h1, h2⟩
    · exact Or.inl h1
    · right
      refine ⟨l, ?_, h2⟩
      have := (hp c).1
      rw [show (s.db.store c).lits = [l] from h1] at this
      exact List.perm_singleton.1 this

theorem LOk.cleanup (h : LOk V s) : LOk V s.cleanup where
  zero := h.zero
  inj := h.inj
  alive := h.alive
  occAll i c hi l hl := by
    have hi : s.obj[i]? = some (some c) := hi
    simp only [SDB.cleanup, List.mem_filter]
    exact ⟨h.occAll i c hi l hl, by rw [hi]; simp⟩
  listed := h.listed

/-! ### Refinement -/

/-- Every clause of the first formula contains a clause of the second. -/
def Refines (C C' : CNF) : Prop := ∀ K ∈ C, ∃ K' ∈ C', ∀ l ∈ K', l ∈ K

theorem Refines.refl (C : CNF) : Refines C C := fun K hK => ⟨K, hK, fun _ h => h⟩
theorem Refines.trans {A B C : CNF} (h : Refines A B) (h' : Refines B C) : Refines A C := by
  intro K hK
  obtain ⟨K1, h1, h2⟩ := h K hK
  obtain ⟨K2, h3, h4⟩ := h' K1 h1
  exact ⟨K2, h3, fun l hl => h2 l (h4 l hl)⟩

theorem Refines.sat {A B : CNF} (h : Refines A B) {a : Assign} (hs : Sat a B) : Sat a A := by
  intro K hK
  obtain ⟨K1, h1, h2⟩ := h K hK
  obtain ⟨l, hl, hh⟩ := hs K1 h1
  exact ⟨l, h2 l hl, hh⟩

theorem Refines.psat {A B : CNF} (h : Refines A B) {a : PAssign} (hs : PSat a B) : PSat a A := by
  intro K hK
  obtain ⟨K1, h1, h2⟩ := h K hK
  obtain ⟨l, hl, hh⟩ := hs K1 h1
  exact ⟨l, h2 l hl, hh⟩

theorem GStep.live (hs : SOk F s) (h : LOk V s) (hg : GStep F s s') :
    LOk V s' ∧ Refines s.db.cnf s'.db.cnf ∧
      (∀ K ∈ s'.db.cnf, ∃ K0 ∈ s.db.cnf, ∀ l ∈ K, l ∈ K0) := by
  have strengthenCase : ∀ {i ci : Nat} {l : Lit}, s.strengthen i l = some s' →
      s.obj[i]? = some (some ci) → l ∈ s.db.lits ci → LOk V s' ∧ Refines s.db.cnf s'.db.cnf ∧
      (∀ K ∈ s'.db.cnf, ∃ K0 ∈ s.db.cnf, ∀ l ∈ K, l ∈ K0) := by
    intro i ci l he hi hm
    have hL := strengthen_live h hs he hi
    have hlt := hs.lt hi
    refine ⟨h.strengthen hs he ?_, ?_, ?_⟩
    · intro c hc
      have : c = ci := Option.some.inj (Option.some.inj (hc.symm.trans hi))
      subst this; exact hm
    · intro K hK
      obtain ⟨c, hc, rfl⟩ := mem_cnf.1 hK
      by_cases hcc : c = ci
      · subst hcc
        refine ⟨_, mem_cnf.2 ⟨s.db.next, (hL.1 _).2 (Or.inr rfl), rfl⟩, ?_⟩
        intro x hx
        rw [hL.2, if_pos rfl] at hx
        exact (List.mem_filter.1 hx).1
      · refine ⟨_, mem_cnf.2 ⟨c, (hL.1 _).2 (Or.inl ⟨hc, hcc⟩), rfl⟩, ?_⟩
        intro x hx
        rw [hL.2, if_neg (by have := hs.db.mem c hc.1; omega)] at hx
        exact hx
    · intro K hK
      obtain ⟨c, hc, rfl⟩ := mem_cnf.1 hK
      rcases (hL.1 c).1 hc with ⟨h1, _⟩ | rfl
      · refine ⟨_, mem_cnf.2 ⟨c, h1, rfl⟩, ?_⟩
        intro x hx
        rw [hL.2, if_neg (by have := hs.db.mem c h1.1; omega)] at hx
        exact hx
      · refine ⟨_, mem_cnf.2 ⟨ci, h.liveId hs hi, rfl⟩, ?_⟩
        intro x hx
        rw [hL.2, if_pos rfl] at hx
        exact (List.mem_filter.1 hx).1
  cases hg with
  | sub hg =>
    cases hg with
    | copy hj =>
      rename_i j cj
      have hL := create_live s (s.db.lits cj)
      refine ⟨h.create hs _, ?_, ?_⟩
      · intro K hK
        obtain ⟨c, hc, rfl⟩ := mem_cnf.1 hK
        refine ⟨_, mem_cnf.2 ⟨c, (hL.1 c).2 (Or.inl hc), rfl⟩, ?_⟩
        intro x hx
        rw [hL.2, if_neg (by have := hs.db.mem c hc.1; omega)] at hx
        exact hx
      · intro K hK
        obtain ⟨c, hc, rfl⟩ := mem_cnf.1 hK
        rcases (hL.1 c).1 hc with h1 | rfl
        · refine ⟨_, mem_cnf.2 ⟨c, h1, rfl⟩, ?_⟩
          intro x hx
          rw [hL.2, if_neg (by have := hs.db.mem c h1.1; omega)] at hx
          exact hx
        · refine ⟨_, mem_cnf.2 ⟨cj, h.liveId hs hj, rfl⟩, ?_⟩
          intro x hx
          rw [hL.2, if_pos rfl] at hx
          exact hx
    | remove he hi hj hij hsub hw =>
      rename_i i ci j cj
      have hL := remove_live he hi
      refine ⟨h.remove he, ?_, ?_⟩
      · intro K hK
        obtain ⟨c, hc, rfl⟩ := mem_cnf.1 hK
        by_cases hcc : c = ci
        · subst hcc
          refine ⟨_, mem_cnf.2 ⟨cj, (hL.1 cj).2 ⟨h.liveId hs hj, ?_⟩, rfl⟩, ?_⟩
          · rintro rfl
            exact hij (h.inj j i _ hj hi)
          · intro x hx
            rw [hL.2] at hx
            exact hsub x hx
        · refine ⟨_, mem_cnf.2 ⟨c, (hL.1 c).2 ⟨hc, hcc⟩, rfl⟩, ?_⟩
          intro x hx
          rw [hL.2] at hx
          exact hx
      · intro K hK
        obtain ⟨c, hc, rfl⟩ := mem_cnf.1 hK
        refine ⟨_, mem_cnf.2 ⟨c, ((hL.1 c).1 hc).1, rfl⟩, ?_⟩
        intro x hx
        rw [hL.2] at hx
        exact hx
    | strengthen he hi hj hij hl hm => exact strengthenCase he hi hm
  | shrink he hent _ =>
    obtain ⟨c, hc, _⟩ := strengthen_eq he
    exact strengthenCase he hc (hent c hc).1
  | perm hp =>
    refine ⟨h.perm hp, ?_, ?_⟩
    · intro K hK
      obtain ⟨c, hc, rfl⟩ := mem_cnf.1 hK
      refine ⟨_, mem_cnf.2 ⟨c, ⟨hc.1, ?_⟩, rfl⟩, ?_⟩
      · simp only; rw [(hp c).2]; exact hc.2
      · intro x hx; exact (hp c).1.mem_iff.1 hx
    · intro K hK
      obtain ⟨c, hc, rfl⟩ := mem_cnf.1 hK
      refine ⟨_, mem_cnf.2 ⟨c, ⟨hc.1, ?_⟩, rfl⟩, ?_⟩
      · rw [← (hp c).2]; exact hc.2
      · intro x hx; exact (hp c).1.mem_iff.1 hx

theorem GSteps.live (hg : GSteps F s s') (hs : SOk F s) (h : LOk V s) :
    LOk V s' ∧ Refines s.db.cnf s'.db.cnf ∧
      (∀ K ∈ s'.db.cnf, ∃ K0 ∈ s.db.cnf, ∀ l ∈ K, l ∈ K0) := by
  induction hg with
  | refl => exact ⟨h, Refines.refl _, fun K hK => ⟨K, hK, fun _ h => h⟩⟩
  | cons a _ ih =>
    obtain ⟨b1, b2, b3⟩ := a.live hs h
    obtain ⟨c1, c2, c3⟩ := ih (a.sound hs).1 b1
    refine ⟨c1, b2.trans c2, fun K hK => ?_⟩
    obtain ⟨K1, d1, d2⟩ := c3 K hK
    obtain ⟨K2, d3, d4⟩ := b3 K1 d1
    exact ⟨K2, d3, fun l hl => d4 l (d2 l hl)⟩

/-! ### Initial state -/

theorem init_fold (db : DB) : ∀ (cs : List Nat) (s : SDB), s.db = db → cs.Nodup →
    (∀ c ∈ cs, ∀ i : Nat, s.obj[i]? ≠ some (some c)) →
    (∀ i j c : Nat, s.obj[i]? = some (some c) → s.obj[j]? = some (some c) → i = j) →
    (∀ i c : Nat, s.obj[i]? = some (some c) → ∀ l ∈ db.lits c, i ∈ s.occ l.var) →
    (cs.foldl SDB.addObj s).db = db ∧
    (∀ i j c : Nat, (cs.foldl SDB.addObj s).obj[i]? = some (some c) →
      (cs.foldl SDB.addObj s).obj[j]? = some (some c) → i = j) ∧
    (∀ i c : Nat, (cs.foldl SDB.addObj s).obj[i]? = some (some c) → ∀ l ∈ db.lits c,
      i ∈ (cs.foldl SDB.addObj s).occ l.var) ∧
    (∀ i c : Nat, (cs.foldl SDB.addObj s).obj[i]? = some (some c) →
      s.obj[i]? = some (some c) ∨ c ∈ cs) ∧
    (∀ i c : Nat, s.obj[i]? = some (some c) → (cs.foldl SDB.addObj s).obj[i]? = some (some c)) ∧
    (∀ c ∈ cs, ∃ i : Nat, (cs.foldl SDB.addObj s).obj[i]? = some (some c))
  | [], s, hdb, _, _, hi, ho => ⟨hdb, hi, ho, fun _ _ h => Or.inl h, fun _ _ h => h, by simp⟩
  | c :: cs, s, hdb, hn, hnew, hi, ho => by
    rw [List.nodup_cons] at hn
    rw [List.foldl_cons]
    have hdb1 : (s.addObj c).db = db := hdb
    obtain ⟨k1, k2, k3, k4, k5, k6⟩ := init_fold db cs (s.addObj c) hdb1 hn.2
      (by
        intro d hd i h
        rcases addObj_obj.1 h with h | ⟨_, rfl⟩
        · exact hnew d (by simp [hd]) i h
        · exact hn.1 hd)
      (by
        intro i j d h1 h2
        rcases addObj_obj.1 h1 with h3 | ⟨e1, e2⟩
        · rcases addObj_obj.1 h2 with h4 | ⟨_, e⟩
          · exact hi i j d h3 h4
          · exact (hnew d (by simp [e]) i h3).elim
        · rcases addObj_obj.1 h2 with h4 | ⟨e3, _⟩
          · exact (hnew d (by simp [e2]) j h4).elim
          · rw [e1, e3])
      (by
        intro i d h1 l hl
        rw [mem_addObj_occ]
        rcases addObj_obj.1 h1 with h1 | ⟨rfl, rfl⟩
        · exact Or.inl (ho i d h1 l hl)
        · exact Or.inr ⟨rfl, l, by rw [hdb]; exact hl, rfl⟩)
    refine ⟨k1, k2, k3, ?_, ?_, ?_⟩
    · intro i d h
      rcases k4 i d h with h | h
      · rcases addObj_obj.1 h with h | ⟨_, rfl⟩
        · exact Or.inl h
        · exact Or.inr (by simp)
      · exact Or.inr (by simp [h])
    · intro i d h
      exact k5 i d (addObj_obj.2 (Or.inl h))
    · intro d hd
      rcases List.mem_cons.1 hd with rfl | hd
      · exact ⟨s.obj.length, k5 _ _ (addObj_obj.2 (Or.inr ⟨rfl, rfl⟩))⟩
      · exact k6 d hd

/-- The simplification state set up for a database of permanent clauses. -/
theorem LOk.init {db : DB} (hn : db.clauses.Nodup) (hz : ∀ c ∈ db.clauses, (db.store c).weight = 0) :
    LOk V (SDB.init db) ∧ (SDB.init db).db = db := by
  obtain ⟨k1, k2, k3, k4, _, k6⟩ := init_fold db db.clauses ⟨db, [], fun _ => []⟩ rfl hn
    (by simp) (by simp) (by simp)
  refine ⟨⟨?_, k2, ?_, ?_, ?_⟩, k1⟩
  · intro c hc
    unfold SDB.init at hc ⊢
    rw [k1] at hc ⊢
    exact Or.inl (hz c hc)
  · intro i c h
    rcases k4 i c h with h1 | h1
    · simp at h1
    · unfold SDB.init; rw [k1]; exact hz c h1
  · intro i c h l hl
    refine k3 i c h l ?_
    unfold SDB.init at hl
    rw [k1] at hl
    exact hl
  · intro c hc
    have := hc.1
    unfold SDB.init at this
    rw [k1] at this
    exact Or.inl (k6 c this)

end Candy
