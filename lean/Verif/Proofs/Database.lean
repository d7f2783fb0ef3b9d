import Verif.Proofs.Analyze

/-! Effect of the clause database operations on the invariants. -/

namespace Candy

variable {F : CNF} {nV next : Nat} {bin : Lit → List Watcher} {store : Nat → Cls} {T : Trail}
variable {watch : Lit → List Watcher} {A : Nat → Prop} {ex : Nat → Lit → Prop}

section Create
variable (db : DB) (ls : List Lit) (lbd : Nat) (lem : Bool)

@[simp] theorem createClause_id : (db.createClause ls lbd lem).2 = db.next := by
  match ls with
  | [] => simp [DB.createClause]
  | [x] => simp [DB.createClause]
  | [x, y] => simp [DB.createClause]
  | x :: y :: z :: r => simp [DB.createClause]
@[simp] theorem createClause_store : (db.createClause ls lbd lem).1.store =
    upd db.store db.next ⟨ls, if ls.length < 3 then 0 else lbd % 65536⟩ := by
  match ls with
  | [] => simp [DB.createClause]
  | [x] => simp [DB.createClause]
  | [x, y] => simp [DB.createClause]
  | x :: y :: z :: r => simp [DB.createClause]
@[simp] theorem createClause_next : (db.createClause ls lbd lem).1.next = db.next + 1 := by
  match ls with
  | [] => simp [DB.createClause]
  | [x] => simp [DB.createClause]
  | [x, y] => simp [DB.createClause]
  | x :: y :: z :: r => simp [DB.createClause]
@[simp] theorem createClause_nVars : (db.createClause ls lbd lem).1.nVars = db.nVars := by
  match ls with
  | [] => simp [DB.createClause]
  | [x] => simp [DB.createClause]
  | [x, y] => simp [DB.createClause]
  | x :: y :: z :: r => simp [DB.createClause]
@[simp] theorem createClause_clauses :
    (db.createClause ls lbd lem).1.clauses = db.clauses ++ [db.next] := by
  match ls with
  | [] => simp [DB.createClause]
  | [x] => simp [DB.createClause]
  | [x, y] => simp [DB.createClause]
  | x :: y :: z :: r => simp [DB.createClause]
@[simp] theorem createClause_log :
    (db.createClause ls lbd lem).1.log = if lem then db.log else db.log ++ [.add ls] := by
  match ls with
  | [] => simp [DB.createClause]
  | [x] => simp [DB.createClause]
  | [x, y] => simp [DB.createClause]
  | x :: y :: z :: r => simp [DB.createClause]
theorem createClause_hasEmpty :
    (db.createClause ls lbd lem).1.hasEmpty = (db.hasEmpty || ls.isEmpty) := by
  match ls with
  | [] => simp [DB.createClause]
  | [x] => simp [DB.createClause]
  | [x, y] => simp [DB.createClause]
  | x :: y :: z :: r => simp [DB.createClause]
theorem createClause_bin :
    (db.createClause ls lbd lem).1.bin =
      match ls with
      | [x, y] => DB.addBin db.bin db.next x y
      | _ => db.bin := by
  match ls with
  | [] => simp [DB.createClause]
  | [x] => simp [DB.createClause]
  | [x, y] => simp [DB.createClause]
  | x :: y :: z :: r => simp [DB.createClause]
end Create

theorem mem_addBin {c : Nat} {x y p : Lit} {w : Watcher} (hxy : x ≠ y) :
    w ∈ DB.addBin bin c x y p ↔
      w ∈ bin p ∨ (p = x.neg ∧ w = ⟨c, y⟩) ∨ (p = y.neg ∧ w = ⟨c, x⟩) := by
  have hne : x.neg ≠ y.neg := fun h => hxy (Lit.neg_inj.1 h)
  unfold DB.addBin
  by_cases h1 : p = y.neg
  · subst h1; simp [Ne.symm hne]
  · by_cases h2 : p = x.neg
    · subst h2; simp [hne]
    · simp [h1, h2]

theorem addBin_mono {c : Nat} {x y p : Lit} {w : Watcher} (hw : w ∈ bin p) :
    w ∈ DB.addBin bin c x y p := by
  unfold DB.addBin
  simp [hw]

theorem createClause_bin_mono {db : DB} {ls : List Lit} {lbd : Nat} {lem : Bool} {p : Lit}
    {w : Watcher} (hw : w ∈ db.bin p) : w ∈ (db.createClause ls lbd lem).1.bin p := by
  rw [createClause_bin]
  split
  · exact addBin_mono hw
  · exact hw

/-- What a certificate line claims. -/
def LineOk (F : CNF) : ProofLine → Prop
  | .add c => Entails F c
  | .del _ => True
  | .empty => Entails F []

/-- The clause was given as input or added to the certificate (up to the order of literals). -/
def Known (F : CNF) (log : List ProofLine) (c : Clause) : Prop :=
  ∃ d, (d ∈ F ∨ ProofLine.add d ∈ log) ∧ c.Perm d

/-- Deletion lines name clauses that are known at that point. -/
def DelOk (F : CNF) (log : List ProofLine) : Prop :=
  ∀ pre d post, log = pre ++ ProofLine.del d :: post → Known F pre d

theorem Known.mono {log : List ProofLine} {c : Clause} (h : Known F log c) (ext : List ProofLine) :
    Known F (log ++ ext) c := by
  obtain ⟨d, h1, h2⟩ := h
  exact ⟨d, h1.imp id (fun h => List.mem_append_left _ h), h2⟩

theorem Known.perm {log : List ProofLine} {c c' : Clause} (h : Known F log c) (hp : c'.Perm c) :
    Known F log c' := by
  obtain ⟨d, h1, h2⟩ := h
  exact ⟨d, h1, hp.trans h2⟩

theorem DelOk.snoc {log : List ProofLine} {ln : ProofLine} (h : DelOk F log)
    (hl : ∀ d, ln = .del d → Known F log d) : DelOk F (log ++ [ln]) := by
  intro pre d post he
  rcases List.eq_nil_or_concat post with rfl | ⟨q, z, rfl⟩
  · have := List.append_inj' he (by simp)
    obtain ⟨rfl, h2⟩ := this
    simp at h2
    exact hl d h2
  · rw [List.concat_eq_append, ← List.cons_append, ← List.append_assoc] at he
    have := List.append_inj' he (by simp)
    exact h pre d q this.1

/-- The trail-independent part of `Core` for a database. -/
structure DBOk (F : CNF) (db : DB) : Prop where
  mem : ∀ c ∈ db.clauses, c < db.next
  nodup : db.clauses.Nodup
  wf : ∀ c < db.next, ∀ l ∈ (db.store c).lits, l.var < db.nVars
  nd : ∀ c < db.next, ((db.store c).lits.map Lit.var).Nodup
  ent : ∀ c < db.next, Entails F (db.store c).lits
  binInv : ∀ p w, w ∈ db.bin p → w.cref < db.next ∧
    ((db.store w.cref).lits = [p.neg, w.blocker] ∨ (db.store w.cref).lits = [w.blocker, p.neg])
  binAll : ∀ c ∈ db.clauses, (db.store c).weight = 0 → ∀ x y, (db.store c).lits = [x, y] →
    (⟨c, y⟩ : Watcher) ∈ db.bin x.neg ∧ (⟨c, x⟩ : Watcher) ∈ db.bin y.neg
  empt : db.hasEmpty = true → Entails F []
  emptAll : ∀ c ∈ db.clauses, (db.store c).lits = [] → db.hasEmpty = true
  log : ∀ ln ∈ db.log, LineOk F ln
  hist : ∀ c < db.next, Known F db.log (db.store c).lits
  dels : DelOk F db.log
  short : ∀ c < db.next, (db.store c).lits.length < 3 →
    (db.store c).weight ≤ 2 ∨ (db.store c).weight = Cls.deletedWeight
  binSym : ∀ p w, w ∈ db.bin p → (⟨w.cref, p.neg⟩ : Watcher) ∈ db.bin w.blocker.neg

theorem pair_ne {x y : Lit} (h : ([x, y].map Lit.var).Nodup) : x ≠ y := by
  rintro rfl; simp at h

theorem DBOk.createClause {db : DB} (h : DBOk F db) {ls : List Lit} {lbd : Nat} {lem : Bool}
    (hwf : ∀ l ∈ ls, l.var < db.nVars) (hnd : (ls.map Lit.var).Nodup) (hent : Entails F ls)
    (hlem : lem = true → ls ∈ F := by simp) :
    DBOk F (db.createClause ls lbd lem).1 where
  mem c hc := by
    simp only [createClause_clauses, List.mem_append, List.mem_singleton, createClause_next] at hc ⊢
    rcases hc with hc | rfl
    · have := h.mem c hc; omega
    · omega
  nodup := by
    simp only [createClause_clauses]
    rw [List.nodup_append]
    refine ⟨h.nodup, by simp, ?_⟩
    intro a ha b hb
    simp at hb; subst hb
    have := h.mem a ha; omega
  wf c hc := by
    simp only [createClause_next, createClause_store, createClause_nVars] at hc ⊢
    by_cases hcn : c = db.next
    · subst hcn; simpa using hwf
    · rw [upd_ne _ _ hcn]; exact h.wf c (by omega)
  nd c hc := by
    simp only [createClause_next, createClause_store] at hc ⊢
    by_cases hcn : c = db.next
    · subst hcn; simpa using hnd
    · rw [upd_ne _ _ hcn]; exact h.nd c (by omega)
  ent c hc := by
    simp only [createClause_next, createClause_store] at hc ⊢
    by_cases hcn : c = db.next
    · subst hcn; simpa using hent
    · rw [upd_ne _ _ hcn]; exact h.ent c (by omega)
  binInv p w hw := by
    have old : w ∈ db.bin p → w.cref < (db.createClause ls lbd lem).1.next ∧
        (((db.createClause ls lbd lem).1.store w.cref).lits = [p.neg, w.blocker] ∨
          ((db.createClause ls lbd lem).1.store w.cref).lits = [w.blocker, p.neg]) := by
      intro hw
      obtain ⟨a, b⟩ := h.binInv p w hw
      simp only [createClause_next, createClause_store]
      rw [upd_ne _ _ (by omega)]
      exact ⟨by omega, b⟩
    rw [createClause_bin] at hw
    split at hw
    · rename_i x y
      rw [mem_addBin (pair_ne hnd)] at hw
      rcases hw with hw | ⟨rfl, rfl⟩ | ⟨rfl, rfl⟩
      · exact old hw
      · simp
      · simp
    · exact old hw
  binAll c hc hdel x y hl := by
    simp only [createClause_clauses, createClause_store] at hc hdel hl
    rw [List.mem_append] at hc
    rcases hc with hc | hc
    · have := h.mem c hc
      rw [upd_ne _ _ (by omega)] at hl hdel
      obtain ⟨a, b⟩ := h.binAll c hc hdel x y hl
      exact ⟨createClause_bin_mono a, createClause_bin_mono b⟩
    · simp at hc; subst hc
      simp at hl
      subst hl
      rw [createClause_bin]
      simp only
      rw [mem_addBin (pair_ne hnd), mem_addBin (pair_ne hnd)]
      simp
  empt he := by
    rw [createClause_hasEmpty] at he
    simp only [Bool.or_eq_true, List.isEmpty_iff] at he
    rcases he with he | rfl
    · exact h.empt he
    · exact hent
  emptAll c hc hl := by
    rw [createClause_hasEmpty]
    simp only [createClause_clauses, createClause_store] at hc hl
    rw [List.mem_append] at hc
    rcases hc with hc | hc
    · have := h.mem c hc
      rw [upd_ne _ _ (by omega)] at hl
      simp [h.emptAll c hc hl]
    · simp at hc; subst hc
      simp at hl
      simp [hl]
  log ln hln := by
    rw [createClause_log] at hln
    split at hln
    · exact h.log ln hln
    · rcases List.mem_append.1 hln with hln | hln
      · exact h.log ln hln
      · simp at hln; subst hln; exact hent
  hist c hc := by
    simp only [createClause_next, createClause_store, createClause_log] at hc ⊢
    by_cases hcn : c = db.next
    · subst hcn
      rw [upd_same]
      cases lem with
      | true => exact ⟨ls, Or.inl (hlem rfl), List.Perm.refl _⟩
      | false => exact ⟨ls, Or.inr (by simp), List.Perm.refl _⟩
    · rw [upd_ne _ _ hcn]
      have := h.hist c (by omega)
      split
      · exact this
      · exact this.mono _
  dels := by
    rw [createClause_log]
    split
    · exact h.dels
    · exact h.dels.snoc (by simp)
  short c hc := by
    simp only [createClause_next, createClause_store] at hc ⊢
    by_cases hcn : c = db.next
    · subst hcn
      rw [upd_same]
      intro hlen
      simp only at hlen ⊢
      rw [if_pos hlen]; exact Or.inl (by omega)
    · rw [upd_ne _ _ hcn]; exact h.short c (by omega)
  binSym p w hw := by
    rw [createClause_bin] at hw ⊢
    split at hw
    · rename_i x y
      rw [mem_addBin (pair_ne hnd)] at hw ⊢
      rcases hw with hw | ⟨rfl, rfl⟩ | ⟨rfl, rfl⟩
      · exact Or.inl (h.binSym p w hw)
      · simp
      · simp
    · exact h.binSym p w hw

/-! ### Transport of `Core`, `WatchInv`, `CInv` -/

theorem Core.toDB {store' : Nat → Cls} {next' nV' : Nat} {bin' : Lit → List Watcher}
    (h : Core F nV next bin store T) (hn : next ≤ next') (hv : nV' = nV)
    (hst : ∀ c < next, (store' c).lits = (store c).lits)
    (wf : ∀ c < next', ∀ l ∈ (store' c).lits, l.var < nV')
    (nd : ∀ c < next', ((store' c).lits.map Lit.var).Nodup)
    (ent : ∀ c < next', Entails F (store' c).lits)
    (bi : ∀ p w, w ∈ bin' p → w.cref < next' ∧
      ((store' w.cref).lits = [p.neg, w.blocker] ∨ (store' w.cref).lits = [w.blocker, p.neg])) :
    Core F nV' next' bin' store' T where
  tinv := h.tinv
  nv := h.nv.trans hv.symm
  wf := wf
  nd := nd
  ent := ent
  rsome pre p post c hs hr := by
    obtain ⟨a, b, d⟩ := h.rsome pre p post c hs hr
    rw [hst c a]
    exact ⟨by omega, b, d⟩
  rnone := h.rnone
  binInv := bi

theorem WatchInv.congr {store' : Nat → Cls} {next' : Nat} (h : WatchInv next store watch)
    (hn : next ≤ next') (hst : ∀ c < next, (store' c).lits = (store c).lits) :
    WatchInv next' store' watch where
  wmem p w hw := by
    obtain ⟨a, b⟩ := h.wmem p w hw
    rw [hst _ a]
    exact ⟨by omega, b⟩
  wnd := h.wnd

theorem CInv.congr {store' : Nat → Cls} {watch' bin' : Lit → List Watcher}
    (h : CInv A store watch bin T ex) (hst : ∀ c, A c → (store' c).lits = (store c).lits)
    (hw : ∀ p w, w ∈ watch p → w ∈ watch' p) (hb : ∀ p w, w ∈ bin p → w ∈ bin' p) :
    CInv A store' watch' bin' T ex where
  w1 c hc x y r hl hr := by
    rw [hst c hc] at hl
    obtain ⟨⟨a, a1, a2⟩, ⟨b, b1, b2⟩⟩ := h.w1 c hc x y r hl hr
    exact ⟨⟨a, hw _ _ a1, a2⟩, ⟨b, hw _ _ b1, b2⟩⟩
  b1 c hc x y hl := by
    rw [hst c hc] at hl
    obtain ⟨a, b⟩ := h.b1 c hc x y hl
    exact ⟨hb _ _ a, hb _ _ b⟩
  w4 c hc x y r hl w hx := by
    rw [hst c hc] at hl ⊢
    exact h.w4 c hc x y r hl w hx

theorem CInv.union {B : Nat → Prop} (h : CInv A store watch bin T ex)
    (h' : CInv B store watch bin T ex) : CInv (fun c => A c ∨ B c) store watch bin T ex where
  w1 c hc := hc.elim (h.w1 c) (h'.w1 c)
  b1 c hc := hc.elim (h.b1 c) (h'.b1 c)
  w4 c hc := hc.elim (h.w4 c) (h'.w4 c)

theorem CInv.subset {B : Nat → Prop} (h : CInv A store watch bin T ex) (hB : ∀ c, B c → A c) :
    CInv B store watch bin T ex where
  w1 c hc := h.w1 c (hB c hc)
  b1 c hc := h.b1 c (hB c hc)
  w4 c hc := h.w4 c (hB c hc)

/-- The watch lists after attaching clause `c`. -/
def attach2 (watch : Lit → List Watcher) (c : Nat) (x y : Lit) : Lit → List Watcher :=
  DB.addBin watch c x y

theorem attachClause_eq {c : Nat} {x y : Lit} {r : List Lit} (h : (store c).lits = x :: y :: r) :
    attachClause store watch c = some (attach2 watch c x y) := by
  simp [attachClause, h, attach2]

theorem WatchInv.attach (h : WatchInv next store watch) {c : Nat} {x y : Lit} {r : List Lit}
    (hl : (store c).lits = x :: y :: r) (hr : r ≠ []) (hxy : x ≠ y) (hc : c < next)
    (hnew : ∀ p, c ∉ (watch p).map Watcher.cref) :
    WatchInv next store (attach2 watch c x y) where
  wmem p w hw := by
    rw [attach2, mem_addBin hxy] at hw
    rcases hw with hw | ⟨rfl, rfl⟩ | ⟨rfl, rfl⟩
    · exact h.wmem p w hw
    · exact ⟨hc, by simp [hl], x, y, r, hl, hr, by simp⟩
    · exact ⟨hc, by simp [hl], x, y, r, hl, hr, by simp⟩
  wnd p := by
    have hne : x.neg ≠ y.neg := fun h => hxy (Lit.neg_inj.1 h)
    unfold attach2 DB.addBin
    have snoc : ∀ q b, ((watch q ++ [(⟨c, b⟩ : Watcher)]).map Watcher.cref).Nodup := by
      intro q b
      rw [List.map_append, List.nodup_append]
      refine ⟨h.wnd q, by simp, ?_⟩
      intro a ha d hd
      simp at hd; subst hd
      rintro rfl
      exact hnew q ha
    by_cases h1 : p = y.neg
    · subst h1
      simpa [Ne.symm hne] using snoc y.neg x
    · by_cases h2 : p = x.neg
      · subst h2; simpa [hne] using snoc x.neg y
      · simpa [h1, h2] using h.wnd p

/-- Backtracking keeps the invariant. -/
theorem Core.backtrack (h : Core F nV next bin store T) (lvl : Nat) :
    Core F nV next bin store (T.backtrack lvl) := by
  cases hk : T.lim[lvl]? with
  | none => rw [Trail.backtrack_none hk]; exact h
  | some k =>
    have hext : ∀ pre p post, (T.backtrack lvl).stack = pre ++ p :: post →
        T.stack = pre ++ p :: (post ++ T.stack.drop k) ∧ pre.length < k := by
      intro pre p post hs
      rw [Trail.backtrack_stack hk] at hs
      constructor
      · conv => lhs; rw [← List.take_append_drop k T.stack, hs]
        simp
      · have := congrArg List.length hs
        simp at this; omega
    exact {
      tinv := Trail.backtrack_inv h.tinv
      nv := by rw [Trail.backtrack_nVars]; exact h.nv
      wf := h.wf
      nd := h.nd
      ent := h.ent
      rsome := fun pre p post c hs hr => by
        rw [Trail.backtrack_reason] at hr
        exact h.rsome pre p _ c (hext pre p post hs).1 hr
      rnone := fun pre p post hs hr => by
        rw [Trail.backtrack_reason] at hr
        rw [Trail.backtrack_level, Trail.backtrack_lim hk]
        obtain ⟨h1, h2⟩ := hext pre p post hs
        rcases h.rnone pre p _ h1 hr with h3 | ⟨h3, h4⟩
        · exact Or.inl h3
        · refine Or.inr ⟨h3, ?_⟩
          have hlv := h.tinv.level_gt_iff h1 hk
          rw [List.getElem?_take]
          rw [if_pos (by omega)]
          exact h4
      binInv := h.binInv }

theorem Trail.backtrack_mem (ht : T.Inv) {lvl k : Nat} (hk : T.lim[lvl]? = some k) {l : Lit} :
    l ∈ (T.backtrack lvl).stack ↔ l ∈ T.stack ∧ T.level l.var ≤ lvl := by
  rw [Trail.backtrack_stack hk]
  constructor
  · intro hl
    have hm := List.mem_of_mem_take hl
    refine ⟨hm, ?_⟩
    obtain ⟨pre, post, hs⟩ := List.append_of_mem hl
    have h1 : T.stack = pre ++ l :: (post ++ T.stack.drop k) := by
      conv => lhs; rw [← List.take_append_drop k T.stack, hs]
      simp
    have hlt : pre.length < k := by
      have := congrArg List.length hs
      simp at this; omega
    have := (ht.level_gt_iff h1 hk)
    omega
  · rintro ⟨hm, hle⟩
    obtain ⟨pre, post, hs⟩ := List.append_of_mem hm
    have := (ht.level_gt_iff hs hk)
    obtain ⟨j, hj⟩ : ∃ j, k = pre.length + (j + 1) := ⟨k - pre.length - 1, by omega⟩
    rw [hs, hj, List.take_length_add_append]
    simp

end Candy
