import Verif.Proofs.Rup

/-! The certificate written by a run without simplification can be checked by unit propagation. -/

namespace Candy

variable {F R : CNF} {ids : List Nat} {db : DB}

/-! ### The clauses of the database are present -/

/-- The certificate checks so far, and the clauses `ids` (and `R`) are present. -/
structure Cert0 (F R : CNF) (ids : List Nat) (db : DB) : Prop where
  checks : Checks F db.log
  nd : ids.Nodup
  lt : ∀ c ∈ ids, c < db.next
  cnt : CLe (ids.map (fun c => db.lits c) ++ R) (present F db.log)

/-- Moreover every stored clause is subsumed by one of them. -/
structure Cert (F R : CNF) (ids : List Nat) (db : DB) : Prop extends Cert0 F R ids db where
  sub : ∀ c < db.next, ∃ d ∈ ids, db.lits d ⊆ db.lits c
  emp : db.hasEmpty = true → UPConflict (present F db.log)

theorem Cert0.mem (h : Cert0 F R ids db) {c : Nat} (hc : c ∈ ids) : ∃ d ∈ present F db.log, d.Perm (db.lits c) :=
  h.cnt.mem (List.mem_append_left _ (List.mem_map.2 ⟨c, hc, rfl⟩))

theorem Cert.subs (h : Cert F R ids db) : ∀ c < db.next, ∃ d ∈ present F db.log, d ⊆ db.lits c := by
  intro c hc
  obtain ⟨i, hi, hs⟩ := h.sub c hc
  obtain ⟨d, hd, hp⟩ := h.mem hi
  exact ⟨d, hd, fun x hx => hs (hp.mem_iff.1 hx)⟩

theorem present_add (F : CNF) (log : List ProofLine) (c : Clause) : present F (log ++ [.add c]) = present F log ++ [c] := by
  rw [present_append]; rfl
theorem present_empty (F : CNF) (log : List ProofLine) : present F (log ++ [.empty]) = present F log ++ [[]] := by
  rw [present_append]; rfl
theorem present_del (F : CNF) (log : List ProofLine) (c : Clause) :
    present F (log ++ [.del c]) = (present F log).eraseP fun d => d.isPerm c := by
  rw [present_append]; rfl

theorem UPConflict.add {S : CNF} (h : UPConflict S) (c : Clause) : UPConflict (S ++ [c]) :=
  h.mono (.ofSubset fun _ hd => List.mem_append_left _ hd)

theorem UPConflict.ofEmpty {S : CNF} (h : [] ∈ S) : UPConflict S := ⟨[], h, by simp⟩

theorem map_create (h : ∀ c ∈ ids, c < db.next) (ls : List Lit) (lbd : Nat) (lem : Bool) :
    (ids ++ [db.next]).map (fun c => (db.createClause ls lbd lem).1.lits c) = ids.map (fun c => db.lits c) ++ [ls] := by
  rw [List.map_append]
  congr 1
  · refine List.map_congr_left fun c hc => ?_
    rw [createClause_lits, if_neg (by have := h c hc; omega)]
  · simp [createClause_lits]

theorem nodup_next (h : ids.Nodup) (hlt : ∀ c ∈ ids, c < db.next) : (ids ++ [db.next]).Nodup := by
  rw [List.nodup_append]
  refine ⟨h, by simp, ?_⟩
  intro a ha b hb
  rw [List.mem_singleton.1 hb]
  have := hlt a ha; omega

theorem sub_create (hs : ∀ c < db.next, ∃ d ∈ ids, db.lits d ⊆ db.lits c) (hlt : ∀ c ∈ ids, c < db.next)
    (ls : List Lit) (lbd : Nat) (lem : Bool) : ∀ c < (db.createClause ls lbd lem).1.next,
      ∃ d ∈ ids ++ [db.next], (db.createClause ls lbd lem).1.lits d ⊆ (db.createClause ls lbd lem).1.lits c := by
  intro c hc
  rw [createClause_next] at hc
  by_cases e : c = db.next
  · exact ⟨db.next, by simp, by rw [e]; exact fun _ h => h⟩
  · obtain ⟨d, hd, h⟩ := hs c (by omega)
    refine ⟨d, by simp [hd], ?_⟩
    rw [createClause_lits, createClause_lits, if_neg e, if_neg (by have := hlt d hd; omega)]
    exact h

theorem Cert.create (h : Cert F R ids db) {ls : List Lit} (hr : RUP (present F db.log) ls) (lbd : Nat) :
    Cert F R (ids ++ [db.next]) (db.createClause ls lbd false).1 where
  checks := by
    rw [createClause_log, if_neg (by simp), Checks_append]
    exact ⟨h.checks, hr, trivial⟩
  nd := nodup_next h.nd h.lt
  lt := by
    intro c hc
    rw [createClause_next]
    rcases List.mem_append.1 hc with hc | hc
    · have := h.lt c hc; omega
    · rw [List.mem_singleton.1 hc]; omega
  cnt := by
    rw [map_create h.lt, createClause_log, if_neg (by simp), present_add]
    refine CLe.trans ?_ (h.cnt.append (.refl [ls]))
    refine .ofPerm ?_
    rw [List.append_assoc, List.append_assoc]
    exact List.Perm.append_left _ List.perm_append_comm
  sub := sub_create h.sub h.lt _ _ _
  emp := by
    intro he
    rw [createClause_log, if_neg (by simp), present_add]
    rw [createClause_hasEmpty, Bool.or_eq_true] at he
    rcases he with he | he
    · exact (h.emp he).add _
    · cases ls with
      | nil => exact .ofEmpty (by simp)
      | cons => cases he

theorem Cert.give (h : Cert F (ls :: R) ids db) (lbd : Nat) (lem : Bool) :
    Cert F R (ids ++ [db.next]) (db.createClause ls lbd lem).1 := by
  obtain ⟨d, hd, hp⟩ := h.cnt.mem (c := ls) (by simp)
  cases lem with
  | false =>
    have hq : CLe (ids.map (fun c => db.lits c) ++ R) (present F db.log) := by
      refine CLe.trans ?_ h.cnt
      intro k
      rw [List.countP_append, List.countP_append, List.countP_cons]
      omega
    have h' : Cert F R ids db := ⟨⟨h.checks, h.nd, h.lt, hq⟩, h.sub, h.emp⟩
    exact h'.create (.ofMem hd fun x hx => hp.mem_iff.1 hx) lbd
  | true =>
    have hlog : (db.createClause ls lbd true).1.log = db.log := by rw [createClause_log, if_pos rfl]
    exact {
      checks := by rw [hlog]; exact h.checks
      nd := nodup_next h.nd h.lt
      lt := by
        intro c hc
        rw [createClause_next]
        rcases List.mem_append.1 hc with hc | hc
        · have := h.lt c hc; omega
        · rw [List.mem_singleton.1 hc]; omega
      cnt := by
        rw [map_create h.lt, hlog, List.append_assoc]
        exact h.cnt
      sub := sub_create h.sub h.lt _ _ _
      emp := by
        intro he
        rw [hlog]
        rw [createClause_hasEmpty, Bool.or_eq_true] at he
        rcases he with he | he
        · exact h.emp he
        · cases ls with
          | nil => exact .ofEmpty (by rw [hp.symm.nil_eq]; exact hd)
          | cons => cases he }

theorem Cert.empty (h : Cert F R ids db) (hu : UPConflict (present F db.log)) : Cert F R ids db.emptyClause where
  checks := by
    show Checks F (db.log ++ [.empty])
    rw [Checks_append]
    exact ⟨h.checks, hu.rup [], trivial⟩
  nd := h.nd
  lt := h.lt
  cnt := by
    show CLe _ (present F (db.log ++ [.empty]))
    rw [present_empty]
    exact h.cnt.trans (.left _ _)
  sub := h.sub
  emp _ := by
    show UPConflict (present F (db.log ++ [.empty]))
    rw [present_empty]
    exact .ofEmpty (by simp)

theorem CLe.map_perm {f g : Nat → Clause} (h : ∀ c, (g c).Perm (f c)) (ids : List Nat) : CLe (ids.map g) (ids.map f) := by
  intro k
  rw [List.countP_map, List.countP_map]
  refine Nat.le_of_eq (List.countP_congr fun c _ => ?_)
  simp only [Function.comp_apply, List.isPerm_iff]
  exact ⟨fun h' => (h c).symm.trans h', fun h' => (h c).trans h'⟩

theorem Cert.ofPerm {db' : DB} (h : Cert F R ids db) (hn : db'.next = db.next) (hl : db'.log = db.log)
    (he : db'.hasEmpty = db.hasEmpty) (hp : ∀ c, (db'.lits c).Perm (db.lits c)) : Cert F R ids db' where
  checks := by rw [hl]; exact h.checks
  nd := h.nd
  lt := by rw [hn]; exact h.lt
  cnt := by rw [hl]; exact ((CLe.map_perm hp ids).append (.refl R)).trans h.cnt
  sub := by
    intro c hc
    rw [hn] at hc
    obtain ⟨d, hd, hs⟩ := h.sub c hc
    exact ⟨d, hd, fun x hx => (hp c).mem_iff.2 (hs ((hp d).mem_iff.1 hx))⟩
  emp := by rw [hl, he]; exact h.emp

/-! ### Removal and reorganisation -/

theorem Cert0.remove (h : Cert0 F R ids db) {c : Nat} (hc : c ∈ ids) : Cert0 F R (ids.erase c) (db.removeClause c) where
  checks := by
    rw [removeClause_log, Checks_append]
    exact ⟨h.checks, h.mem hc, trivial⟩
  nd := h.nd.erase c
  lt d hd := by rw [removeClause_next]; exact h.lt d (List.mem_of_mem_erase hd)
  cnt := by
    have e : (fun d => (db.removeClause c).lits d) = fun d => db.lits d := funext fun d => removeClause_lits db c d
    rw [removeClause_log, present_del, e]
    refine CLe.eraseR (CLe.trans ?_ h.cnt)
    refine .ofPerm ?_
    have := (List.perm_cons_erase hc).map fun d => db.lits d
    exact (this.append_right R).symm

theorem Cert0.removeFold : ∀ (cs ids : List Nat) (db : DB), Cert0 F R ids db → (∀ c ∈ cs, c ∈ ids) → cs.Nodup →
    Cert0 F R (cs.foldl List.erase ids) (cs.foldl DB.removeClause db)
  | [], _, _, h, _, _ => h
  | c :: cs, ids, db, h, hm, hn => by
    rw [List.foldl_cons, List.foldl_cons]
    rw [List.nodup_cons] at hn
    refine Cert0.removeFold cs _ _ (h.remove (hm c (by simp))) ?_ hn.2
    intro d hd
    exact (h.nd.mem_erase_iff).2 ⟨fun e => hn.1 (e ▸ hd), hm d (by simp [hd])⟩

theorem mem_eraseFold : ∀ (cs ids : List Nat), ids.Nodup → ∀ c, c ∈ cs.foldl List.erase ids ↔ c ∈ ids ∧ c ∉ cs
  | [], ids, _, c => by simp
  | d :: cs, ids, hn, c => by
    rw [List.foldl_cons, mem_eraseFold cs _ (hn.erase d), hn.mem_erase_iff]
    simp only [List.mem_cons, not_or]
    constructor
    · rintro ⟨⟨h1, h2⟩, h3⟩; exact ⟨h2, h1, h3⟩
    · rintro ⟨h2, h1, h3⟩; exact ⟨⟨h1, h2⟩, h3⟩

theorem removeClause_deleted (db : DB) (c : Nat) : ((db.removeClause c).store c).isDeleted = true := by
  rw [removeClause_store]; simp [Cls.isDeleted, Cls.deletedWeight]

theorem removeFold_deleted : ∀ (cs : List Nat) (db : DB) (c : Nat), c ∈ cs ∨ (db.store c).isDeleted = true →
    ((cs.foldl DB.removeClause db).store c).isDeleted = true
  | [], _, _, h => by simpa using h
  | d :: cs, db, c, h => by
    rw [List.foldl_cons]
    refine removeFold_deleted cs _ c ?_
    by_cases e : c = d
    · right; rw [e]; exact removeClause_deleted db d
    · rcases h with h | h
      · exact .inl ((List.mem_cons.1 h).resolve_left e)
      · right; rw [removeClause_store, upd_ne _ _ e]; exact h

theorem collect_nodup (h : db.clauses.Nodup) : db.collect.Nodup := by
  unfold DB.collect
  rw [List.nodup_append]
  refine ⟨List.filter_sublist.nodup h, List.filter_sublist.nodup h, ?_⟩
  intro a ha b hb e
  subst e
  have h1 := (List.mem_filter.1 ha).2
  have h2 := (List.mem_filter.1 hb).2
  simp only [Bool.and_eq_true, bne_iff_ne, beq_iff_eq] at h1 h2
  exact h1.2 h2.2

theorem CLe.ofNodup {xs ys : List Nat} (f : Nat → Clause) (hx : xs.Nodup) (h : ∀ x ∈ xs, x ∈ ys) :
    CLe (xs.map f) (ys.map f) := by
  intro k
  rw [List.countP_map, List.countP_map, List.countP_eq_length_filter, List.countP_eq_length_filter]
  refine List.Nodup.length_le_of_subset (List.filter_sublist.nodup hx) ?_
  intro x hm
  obtain ⟨h1, h2⟩ := List.mem_filter.1 hm
  exact List.mem_filter.2 ⟨h x h1, h2⟩

/-- After `reorganize` exactly the surviving clauses are stored. -/
theorem Cert0.reorganize (h : Cert0 F R ids db) (hn : db.clauses.Nodup) (hk : ∀ c ∈ db.collect, c ∈ ids)
    (he : db.hasEmpty = false) : Cert F R (List.range db.reorganize.next) db.reorganize where
  checks := h.checks
  nd := List.nodup_range
  lt c hc := List.mem_range.1 hc
  cnt := by
    have e : (List.range db.reorganize.next).map (fun c => db.reorganize.lits c) = db.collect.map fun c => db.lits c := by
      refine List.ext_getElem (by simp [reorganize_next]) ?_
      intro i h1 h2
      have hi : i < db.collect.length := by simpa using h2
      simp only [List.getElem_map, List.getElem_range]
      have : db.reorganize.store i = db.store db.collect[i] := reorganize_store (List.getElem?_eq_getElem hi)
      unfold DB.lits
      rw [this]
    rw [e]
    exact ((CLe.ofNodup (fun c => db.lits c) (collect_nodup hn) hk).append (.refl R)).trans h.cnt
  sub c hc := ⟨c, List.mem_range.2 hc, fun _ h => h⟩
  emp hh := by
    have : db.reorganize.hasEmpty = db.hasEmpty := rfl
    rw [this, he] at hh; cases hh

/-! ### Literals of level 0 -/

/-- The literals of level 0 without reason clause are derived. -/
def Facts (S : CNF) (T : Trail) : Prop :=
  ∀ l ∈ T.stack, T.level l.var = 0 → T.reason l.var = none → Derives S l ∨ UPConflict S

theorem Facts.mono {S S' : CNF} {T : Trail} (h : Facts S T) (hs : Subsumed S S') : Facts S' T := by
  intro l hl h1 h2
  rcases h l hl h1 h2 with h | h
  · exact h.mono hs
  · exact .inr (h.mono hs)

theorem Facts.ext {S : CNF} {T T' : Trail} (h : Facts S T) (he : TExt T T') : Facts S T' := by
  intro l hl h1 h2
  by_cases hm : l ∈ T.stack
  · rw [he.level l hm] at h1
    rw [he.reason l hm] at h2
    exact h l hm h1 h2
  · exact (he.new l hl hm h2).elim

theorem Facts.backtrack {S : CNF} {T : Trail} (h : Facts S T) (n : Nat) : Facts S (T.backtrack n) := by
  unfold Trail.backtrack
  split
  · exact h
  · intro l hl h1 h2
    exact h l (List.mem_of_mem_take hl) h1 h2

theorem Facts.propagate {S : CNF} {T : Trail} (h : Facts S T) (p : Lit) (c : Nat) : Facts S (T.propagate p c) := by
  unfold Trail.propagate
  split
  · exact h
  · intro l hl h1 h2
    simp only [Trail.setValue, upd_apply] at hl h1 h2
    by_cases hv : l.var = p.var
    · rw [if_pos hv] at h2; cases h2
    · rw [if_neg hv] at h1 h2
      rcases List.mem_append.1 hl with hl | hl
      · exact h l hl h1 h2
      · rw [List.mem_singleton.1 hl] at hv; exact (hv rfl).elim

theorem Facts.newLevel {S : CNF} {T : Trail} (h : Facts S T) : Facts S T.newDecisionLevel := h

theorem Facts.decide {S : CNF} {T : Trail} (h : Facts S T) (p : Lit) (hd : 0 < T.decisionLevel) : Facts S (T.decide p) := by
  intro l hl h1 h2
  simp only [Trail.decide, Trail.setValue, upd_apply] at hl h1 h2
  by_cases hv : l.var = p.var
  · rw [if_pos hv] at h1; omega
  · rw [if_neg hv] at h1 h2
    rcases List.mem_append.1 hl with hl | hl
    · exact h l hl h1 h2
    · rw [List.mem_singleton.1 hl] at hv; exact (hv rfl).elim

theorem assumeLoop_facts {S : CNF} : ∀ (ps : List Lit) (T T' : Trail) (o : AssumeOut), Facts S T →
    assumeLoop T ps = (T', o) → Facts S T'
  | [], T, T', o, h, he => by cases he; exact h
  | p :: ps, T, T', o, h, he => by
    rw [assumeLoop] at he
    split at he
    · exact assumeLoop_facts ps _ _ _ h.newLevel he
    · cases he; exact h
    · cases he; exact h

/-- On level 0 everything is derived. -/
theorem Facts.all {S : CNF} {nV next : Nat} {bin : Lit → List Watcher} {store : Nat → Cls} {T : Trail}
    (hc : Core F nV next bin store T) (hl : T.lim = []) (hs : ∀ c < next, ∃ d ∈ S, d ⊆ (store c).lits)
    (h : Facts S T) : ∀ l ∈ T.stack, Derives S l ∨ UPConflict S := by
  apply Classical.byContradiction
  intro hn
  have hS : ¬ UPConflict S := by
    intro hu
    exact hn fun _ _ => .inr hu
  refine hn fun l hm => .inl ?_
  have key : ∀ (n : Nat) (pre : List Lit) (p : Lit) (post : List Lit), pre.length ≤ n → T.stack = pre ++ p :: post →
      Derives S p := by
    intro n
    induction n with
    | zero =>
      intro pre p post hle he
      have hp : p ∈ T.stack := by rw [he]; simp
      cases hr : T.reason p.var with
      | none => exact (h p hp (level_zero hc.tinv hl hp) hr).resolve_right hS
      | some c =>
        obtain ⟨k1, k2, k3⟩ := hc.rsome pre p post c he hr
        obtain ⟨d, hd, hds⟩ := hs c k1
        have hpre : pre = [] := List.length_eq_zero_iff.1 (by omega)
        have hall : ∀ m ∈ d, m ≠ p → Derives S m.neg := by
          intro m hmd hne
          have := k3 m (hds hmd) hne
          rw [hpre] at this; cases this
        by_cases hpd : p ∈ d
        · exact .unit d hd p hpd hall
        · exact (hS ⟨d, hd, fun m hmd => hall m hmd fun e => hpd (e ▸ hmd)⟩).elim
    | succ n ih =>
      intro pre p post hle he
      have hp : p ∈ T.stack := by rw [he]; simp
      cases hr : T.reason p.var with
      | none => exact (h p hp (level_zero hc.tinv hl hp) hr).resolve_right hS
      | some c =>
        obtain ⟨k1, k2, k3⟩ := hc.rsome pre p post c he hr
        obtain ⟨d, hd, hds⟩ := hs c k1
        have hall : ∀ m ∈ d, m ≠ p → Derives S m.neg := by
          intro m hmd hne
          obtain ⟨a, b, e⟩ := List.append_of_mem (k3 m (hds hmd) hne)
          refine ih a m.neg (b ++ p :: post) ?_ (by rw [he, e]; simp)
          rw [e] at hle
          simp at hle; omega
        by_cases hpd : p ∈ d
        · exact .unit d hd p hpd hall
        · exact (hS ⟨d, hd, fun m hmd => hall m hmd fun e => hpd (e ▸ hmd)⟩).elim
  obtain ⟨pre, post, he⟩ := List.append_of_mem hm
  exact key pre.length pre l post (Nat.le_refl _) he

/-- A conflict on level 0. -/
theorem upConflict_level0 {S : CNF} {nV next : Nat} {bin : Lit → List Watcher} {store : Nat → Cls} {T : Trail} {L : Prop}
    (hc : Core F nV next bin store T) (hl : T.lim = []) (hs : ∀ c < next, ∃ d ∈ S, d ⊆ (store c).lits)
    (h : Facts S T) {confl : Nat} (hk : ConflictL L next store T confl) : UPConflict S := by
  have ha := h.all hc hl hs
  apply Classical.byContradiction
  intro hn
  obtain ⟨d, hd, hds⟩ := hs confl hk.lt
  exact hn ⟨d, hd, fun m hm => (ha _ (hk.allFalse m (hds hm))).resolve_right hn⟩

end Candy
