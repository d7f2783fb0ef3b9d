import Verif.Proofs.Materialize
import Verif.Model.History

/-! Soundness of `solve` on all histories. -/

namespace Candy

variable {F G : CNF} {nV next : Nat} {bin : Lit → List Watcher} {store : Nat → Cls} {T : Trail}
variable {watch : Lit → List Watcher} {A : Nat → Prop}

/-! ### Watch lists from scratch -/

theorem mem_addBin_imp {c : Nat} {x y p : Lit} {w : Watcher} (h : w ∈ DB.addBin bin c x y p) :
    w ∈ bin p ∨ (p = x.neg ∧ w = ⟨c, y⟩) ∨ (p = y.neg ∧ w = ⟨c, x⟩) := by
  unfold DB.addBin at h
  rcases List.mem_append.1 h with h | h
  · exact Or.inl h
  · rcases List.mem_append.1 h with h | h
    · split at h
      · rename_i e; simp at h; exact Or.inr (Or.inl ⟨e, h⟩)
      · simp at h
    · split at h
      · rename_i e; simp at h; exact Or.inr (Or.inr ⟨e, h⟩)
      · simp at h

theorem mem_addBin_new (bin : Lit → List Watcher) (c : Nat) (x y : Lit) :
    (⟨c, y⟩ : Watcher) ∈ DB.addBin bin c x y x.neg ∧ (⟨c, x⟩ : Watcher) ∈ DB.addBin bin c x y y.neg := by
  unfold DB.addBin
  simp

/-- One step of `attachAll`. -/
def attOne (store : Nat → Cls) (watch : Lit → List Watcher) (c : Nat) : Lit → List Watcher :=
  match (store c).lits with
  | x :: y :: _ :: _ => DB.addBin watch c x y
  | _ => watch

theorem attachAll_cons (store : Nat → Cls) (watch : Lit → List Watcher) (c : Nat) (cs : List Nat) :
    attachAll store watch (c :: cs) = attachAll store (attOne store watch c) cs := rfl

theorem attOne_cases (store : Nat → Cls) (watch : Lit → List Watcher) (c : Nat) :
    attOne store watch c = watch ∨ ∃ x y z r, (store c).lits = x :: y :: z :: r ∧
      attOne store watch c = DB.addBin watch c x y := by
  unfold attOne
  match h : (store c).lits with
  | [] => left; rfl
  | [x] => left; rfl
  | [x, y] => left; rfl
  | x :: y :: z :: r => right; exact ⟨x, y, z, r, rfl, rfl⟩

theorem attachAll_mono (store : Nat → Cls) : ∀ (cs : List Nat) (watch : Lit → List Watcher) {p : Lit}
    {w : Watcher}, w ∈ watch p → w ∈ attachAll store watch cs p
  | [], _, _, _, h => h
  | c :: cs, watch, p, w, h => by
    rw [attachAll_cons]
    refine attachAll_mono store cs _ ?_
    rcases attOne_cases store watch c with e | ⟨x, y, z, r, _, e⟩
    · rw [e]; exact h
    · rw [e]; exact addBin_mono h

theorem attachAll_inv : ∀ (cs : List Nat) (watch : Lit → List Watcher), WatchInv next store watch →
    cs.Nodup → (∀ c ∈ cs, c < next ∧ ((store c).lits.map Lit.var).Nodup) →
    (∀ p, ∀ c ∈ cs, c ∉ (watch p).map Watcher.cref) →
    WatchInv next store (attachAll store watch cs)
  | [], watch, h, _, _, _ => h
  | c :: cs, watch, h, hn, hc, hw => by
    have hn' := List.nodup_cons.1 hn
    rw [attachAll_cons]
    rcases attOne_cases store watch c with e | ⟨x, y, z, r, hl, e⟩
    · rw [e]
      exact attachAll_inv cs _ h hn'.2 (fun d hd => hc d (by simp [hd]))
        (fun p d hd => hw p d (by simp [hd]))
    · rw [e]
      refine attachAll_inv cs _ ?_ hn'.2 (fun d hd => hc d (by simp [hd])) ?_
      · have hxy : x ≠ y := by
          have := (hc c (by simp)).2
          rw [hl] at this
          rintro rfl; simp at this
        exact h.attach (r := z :: r) hl (by simp) hxy (hc c (by simp)).1 (fun p => hw p c (by simp))
      · intro p d hd hm
        obtain ⟨w, h1, rfl⟩ := List.mem_map.1 hm
        rcases mem_addBin_imp h1 with h2 | ⟨_, h2⟩ | ⟨_, h2⟩
        · exact hw p _ (by simp [hd]) (List.mem_map.2 ⟨w, h2, rfl⟩)
        · subst h2; exact hn'.1 hd
        · subst h2; exact hn'.1 hd

theorem attachAll_all {c : Nat} {x y : Lit} {r : List Lit} : ∀ (cs : List Nat)
    (watch : Lit → List Watcher), c ∈ cs → (store c).lits = x :: y :: r → r ≠ [] →
    (⟨c, y⟩ : Watcher) ∈ attachAll store watch cs x.neg ∧
    (⟨c, x⟩ : Watcher) ∈ attachAll store watch cs y.neg
  | [], _, h, _, _ => by simp at h
  | d :: cs, watch, h, hl, hr => by
    rcases List.mem_cons.1 h with rfl | h
    · unfold attachAll
      rw [List.foldl_cons]
      match r, hr with
      | z :: r, _ =>
        rw [hl]
        obtain ⟨a, b⟩ := mem_addBin_new watch c x y
        exact ⟨attachAll_mono store cs _ a, attachAll_mono store cs _ b⟩
    · unfold attachAll
      rw [List.foldl_cons]
      exact attachAll_all cs _ h hl hr

theorem resetWatch_inv {db : DB} (h : DBOk F db) : WatchInv db.next db.store (resetWatch db) := by
  refine attachAll_inv _ _ ⟨by simp, by simp⟩ h.nodup (fun c hc => ⟨h.mem c hc, ?_⟩) (by simp)
  exact h.nd c (h.mem c hc)

/-! ### reorganize -/

/-- The fold of `reinitBinaryWatchers`. -/
def binFold (store : Nat → Cls) (cs : List Nat) (b : Lit → List Watcher) : Lit → List Watcher :=
  cs.foldl (fun b c =>
    match (store c).lits with
    | [x, y] => DB.addBin b c x y
    | _ => b) b

/-- One step of `binFold`. -/
def binOne (store : Nat → Cls) (b : Lit → List Watcher) (c : Nat) : Lit → List Watcher :=
  match (store c).lits with
  | [x, y] => DB.addBin b c x y
  | _ => b

theorem binFold_cons (store : Nat → Cls) (b : Lit → List Watcher) (c : Nat) (cs : List Nat) :
    binFold store (c :: cs) b = binFold store cs (binOne store b c) := rfl

theorem binOne_cases (store : Nat → Cls) (b : Lit → List Watcher) (c : Nat) :
    binOne store b c = b ∨ ∃ x y, (store c).lits = [x, y] ∧ binOne store b c = DB.addBin b c x y := by
  unfold binOne
  match h : (store c).lits with
  | [] => left; rfl
  | [x] => left; rfl
  | [x, y] => right; exact ⟨x, y, rfl, rfl⟩
  | x :: y :: z :: r => left; rfl

theorem binFold_mono : ∀ (cs : List Nat) (b : Lit → List Watcher) {p : Lit} {w : Watcher},
    w ∈ b p → w ∈ binFold store cs b p
  | [], _, _, _, h => h
  | c :: cs, b, p, w, h => by
    rw [binFold_cons]
    refine binFold_mono cs _ ?_
    rcases binOne_cases store b c with e | ⟨x, y, _, e⟩
    · rw [e]; exact h
    · rw [e]; exact addBin_mono h

theorem binFold_mem : ∀ (cs : List Nat) (b : Lit → List Watcher) {p : Lit} {w : Watcher},
    w ∈ binFold store cs b p → w ∈ b p ∨ (w.cref ∈ cs ∧
      ((store w.cref).lits = [p.neg, w.blocker] ∨ (store w.cref).lits = [w.blocker, p.neg]))
  | [], _, _, _, h => Or.inl h
  | c :: cs, b, p, w, h => by
    rw [binFold_cons] at h
    rcases binFold_mem cs _ h with h1 | ⟨h1, h2⟩
    · rcases binOne_cases store b c with e | ⟨x, y, hl, e⟩
      · rw [e] at h1; exact Or.inl h1
      · rw [e] at h1
        rcases mem_addBin_imp h1 with h2 | ⟨rfl, rfl⟩ | ⟨rfl, rfl⟩
        · exact Or.inl h2
        · right; exact ⟨by simp, by simp [hl]⟩
        · right; exact ⟨by simp, by simp [hl]⟩
    · exact Or.inr ⟨by simp [h1], h2⟩

theorem binFold_all {c : Nat} {x y : Lit} : ∀ (cs : List Nat) (b : Lit → List Watcher), c ∈ cs →
    (store c).lits = [x, y] →
    (⟨c, y⟩ : Watcher) ∈ binFold store cs b x.neg ∧ (⟨c, x⟩ : Watcher) ∈ binFold store cs b y.neg
  | [], _, h, _ => by simp at h
  | d :: cs, b, h, hl => by
    rcases List.mem_cons.1 h with rfl | h
    · unfold binFold
      rw [List.foldl_cons, hl]
      obtain ⟨a, b⟩ := mem_addBin_new b c x y
      exact ⟨binFold_mono cs _ a, binFold_mono cs _ b⟩
    · unfold binFold
      rw [List.foldl_cons]
      exact binFold_all cs _ h hl

theorem mem_collect {db : DB} {c : Nat} :
    c ∈ db.collect ↔ c ∈ db.clauses ∧ (db.store c).isDeleted = false := by
  unfold DB.collect
  simp only [List.mem_append, List.mem_filter, Bool.and_eq_true, Bool.not_eq_true', bne_iff_ne,
    beq_iff_eq]
  constructor
  · rintro (⟨a, b, _⟩ | ⟨a, b, _⟩) <;> exact ⟨a, b⟩
  · rintro ⟨a, b⟩
    by_cases h : (db.lits c).length = 1
    · exact Or.inr ⟨a, b, h⟩
    · exact Or.inl ⟨a, b, h⟩

theorem reorganize_store {db : DB} {i c : Nat} (h : db.collect[i]? = some c) :
    db.reorganize.store i = db.store c := by
  simp [DB.reorganize, DB.reinitBin, h]

theorem reorganize_next (db : DB) : db.reorganize.next = db.collect.length := rfl
theorem reorganize_clauses (db : DB) :
    db.reorganize.clauses = List.range db.collect.length := rfl
theorem reorganize_bin (db : DB) :
    db.reorganize.bin = binFold db.reorganize.store db.reorganize.clauses (fun _ => []) := rfl

theorem reorganize_get {db : DB} {i : Nat} (h : i < db.reorganize.next) :
    ∃ c, db.collect[i]? = some c ∧ c ∈ db.clauses ∧ (db.store c).isDeleted = false ∧
      db.reorganize.store i = db.store c := by
  rw [reorganize_next] at h
  have hg := List.getElem?_eq_getElem h
  have hm := List.getElem_mem h
  exact ⟨_, hg, (mem_collect.1 hm).1, (mem_collect.1 hm).2, reorganize_store hg⟩

theorem DBOk.reorganize {db : DB} (h : DBOk F db) : DBOk F db.reorganize where
  mem c hc := by rw [reorganize_clauses] at hc; rw [reorganize_next]; simpa using hc
  nodup := by rw [reorganize_clauses]; exact List.nodup_range
  wf c hc := by
    obtain ⟨d, _, h1, _, h2⟩ := reorganize_get hc
    rw [h2]; exact h.wf d (h.mem d h1)
  nd c hc := by
    obtain ⟨d, _, h1, _, h2⟩ := reorganize_get hc
    rw [h2]; exact h.nd d (h.mem d h1)
  ent c hc := by
    obtain ⟨d, _, h1, _, h2⟩ := reorganize_get hc
    rw [h2]; exact h.ent d (h.mem d h1)
  binSym p w hw := by
    rw [reorganize_bin] at hw ⊢
    rcases binFold_mem _ _ hw with h1 | ⟨h1, h2⟩
    · simp at h1
    · rcases h2 with h2 | h2
      · exact (binFold_all _ _ h1 h2).2
      · exact (binFold_all _ _ h1 h2).1
  binInv p w hw := by
    rw [reorganize_bin] at hw
    rcases binFold_mem _ _ hw with h1 | ⟨h1, h2⟩
    · simp at h1
    · refine ⟨?_, h2⟩
      rw [reorganize_clauses] at h1
      rw [reorganize_next]; simpa using h1
  binAll c hc _ x y hl := by
    rw [reorganize_bin]
    exact binFold_all _ _ hc hl
  empt := h.empt
  emptAll c hc hl := by
    rw [reorganize_clauses] at hc
    obtain ⟨d, _, h1, _, h2⟩ := reorganize_get (db := db) (i := c)
      (by rw [reorganize_next]; simpa using hc)
    rw [h2] at hl
    exact h.emptAll d h1 hl
  log := h.log
  hist c hc := by
    obtain ⟨d, _, h1, _, h2⟩ := reorganize_get hc
    rw [h2]; exact h.hist d (h.mem d h1)
  dels := h.dels
  short c hc := by
    obtain ⟨d, _, h1, _, h2⟩ := reorganize_get hc
    rw [h2]; exact h.short d (h.mem d h1)

/-! ### Pre- and inprocessing -/

/-- Invariant while simplifying. -/
structure PInv (F : CNF) (sys : Sys) : Prop where
  db : DBOk F sys.sol.db
  ve : VEOk F sys.sol.db.nVars sys.ve
  nv : sys.sol.trail.nVars = sys.sol.db.nVars
  l0 : sys.sol.db.hasEmpty = false → L0 F sys.sol

/-- What simplification leaves alone. -/
structure PFrame (sys sys' : Sys) : Prop where
  nVars : sys'.sol.db.nVars = sys.sol.db.nVars
  tnVars : sys'.sol.trail.nVars = sys.sol.trail.nVars
  assumptions : sys'.sol.trail.assumptions = sys.sol.trail.assumptions
  conflict : sys'.sol.conflict = sys.sol.conflict
  hasEmpty : sys.sol.db.hasEmpty = true → sys'.sol.db.hasEmpty = true

theorem PFrame.refl (sys : Sys) : PFrame sys sys := ⟨rfl, rfl, rfl, rfl, id⟩
theorem PFrame.trans {a b c : Sys} (h : PFrame a b) (h' : PFrame b c) : PFrame a c :=
  ⟨h'.1.trans h.1, h'.2.trans h.2, h'.3.trans h.3, h'.4.trans h.4, fun e => h'.5 (h.5 e)⟩

/-- Invariant of the loop in `processClauseDatabase`. -/
structure QInv (F : CNF) (p : Proc) : Prop where
  inv : PInv F p.sys
  ok : SOk F p.sdb

theorem AddsUnits.mem {db db' : DB} (h : AddsUnits db db' T) {c : Nat} (hc : c ∈ db.clauses) :
    c ∈ db'.clauses := by
  obtain ⟨e, h1, _⟩ := h.clauses
  rw [h1]; exact List.mem_append_left _ hc

theorem PInv.materialize {sys : Sys} (h : PInv F sys) :
    ∃ s, Candy.materialize sys.sol = some s ∧ PInv F { sys with sol := s } ∧
      PFrame sys { sys with sol := s } ∧
      (∀ c ∈ sys.sol.db.clauses, c ∈ s.db.clauses) ∧
      (∀ c ∈ sys.sol.db.clauses, ∀ l, l ∈ s.db.lits c ↔ l ∈ sys.sol.db.lits c) := by
  cases he : sys.sol.db.hasEmpty with
  | true =>
    obtain ⟨s, h1, h2, h3, h4, h5, h6, h7, _⟩ := materialize_empty h.db he
    refine ⟨s, h1, ⟨h2, ?_, ?_, ?_⟩, ⟨h3.nVars, h5, h6, h7, fun _ => h4⟩, ?_, ?_⟩
    · simp only; rw [h3.nVars]; exact h.ve
    · simp only; rw [h5, h3.nVars]; exact h.nv
    · simp only [h4]; simp
    · intro c hc; rw [h3.clauses]; exact hc
    · intro c _ l; unfold DB.lits; rw [h3.store]
  | false =>
    obtain ⟨s, h1, h2⟩ := materialize_spec h.db (h.l0 he)
    refine ⟨s, h1, ⟨h2.db, ?_, ?_, h2.l0⟩, ⟨h2.add.nVars, h2.grow.nVars, h2.grow.assumptions,
      h2.conflict, h2.hasEmpty⟩, ?_, ?_⟩
    · simp only; rw [h2.add.nVars]; exact h.ve
    · simp only; rw [h2.grow.nVars, h2.add.nVars]; exact h.nv
    · intro c hc; exact h2.add.mem hc
    · intro c hc l
      exact (h2.add.lits c (h.db.mem c hc)).mem_iff

theorem QInv.materialize {p p' : Proc} (h : QInv F p) (he : p.materialize = some p') :
    QInv F p' ∧ PFrame p.sys p'.sys := by
  obtain ⟨s, h1, h2, h3, h4, h5⟩ := h.inv.materialize
  unfold Proc.materialize at he
  rw [h1] at he
  simp at he; subst he
  exact ⟨⟨h2, h.ok.ofDB h2.db h4 h5⟩, h3⟩

theorem L0.ofDB {s : Solver} (h : L0 F s) {db' : DB} (hd : DBOk F db') (hn : s.db.next ≤ db'.next)
    (hv : db'.nVars = s.db.nVars) (hl : ∀ c < s.db.next, db'.lits c = s.db.lits c) :
    L0 F { s with db := db' } where
  core := Core.ofDB hd h.core hn hv.symm hl
  watch := h.watch.congr hn hl
  lim := h.lim
  rz := h.rz

theorem QInv.after {p : Proc} (h : QInv F p) {ok clean : Bool} (hok : ok = false → Entails F []) :
    QInv F (p.after ok clean) ∧ PFrame p.sys (p.after ok clean).sys := by
  have h1 : QInv F (p.after ok false) ∧ PFrame p.sys (p.after ok false).sys := by
    unfold Proc.after
    cases ok with
    | true => exact ⟨h, PFrame.refl _⟩
    | false =>
      have hd := h.inv.db.emptyClause (hok rfl)
      refine ⟨⟨⟨hd, h.inv.ve, h.inv.nv, by simp [DB.emptyClause]⟩,
        h.ok.ofDB hd (fun _ hc => hc) (fun _ _ _ => Iff.rfl)⟩, ⟨rfl, rfl, rfl, rfl, fun _ => rfl⟩⟩
  cases clean with
  | false => exact h1
  | true =>
    have e : p.after ok true = (p.after ok false).setSdb (p.after ok false).sdb.cleanup := rfl
    rw [e]
    obtain ⟨⟨a1, a2⟩, b⟩ := h1
    exact ⟨⟨⟨a1.db, a1.ve, a1.nv, a1.l0⟩, a2.cleanup⟩, ⟨b.1, b.2, b.3, b.4, b.5⟩⟩

/-- Replacing the clause database by an extension. -/
theorem QInv.setSdb {p : Proc} (h : QInv F p) {s : SDB} (hs : SOk F s)
    (hx : DBExt p.sys.sol.db s.db) : QInv F (p.setSdb s) ∧ PFrame p.sys (p.setSdb s).sys := by
  refine ⟨⟨⟨hs.db, ?_, ?_, ?_⟩, hs⟩, ⟨hx.nVars, rfl, rfl, rfl, hx.hasEmpty⟩⟩
  · simp only [Proc.setSdb]; rw [hx.nVars]; exact h.inv.ve
  · simp only [Proc.setSdb]; rw [hx.nVars]; exact h.inv.nv
  · intro he
    simp only [Proc.setSdb] at he ⊢
    have h0 : p.sys.sol.db.hasEmpty = false := by
      cases hb : p.sys.sol.db.hasEmpty with
      | false => rfl
      | true => rw [hx.hasEmpty hb] at he; simp at he
    exact (h.inv.l0 h0).ofDB hs.db hx.next hx.nVars hx.lits

theorem QInv.subsume {p p' : Proc} {r : PreRound} (h : QInv F p) (he : p.subsume r = some p') :
    QInv F p' ∧ PFrame p.sys p'.sys := by
  unfold Proc.subsume at he
  cases hs : subsumeAll r.before r.fuel p.sdb with
  | none => rw [hs] at he; simp at he
  | some x =>
    obtain ⟨s, b⟩ := x
    rw [hs] at he
    simp at he; subst he
    obtain ⟨h1, h2⟩ := subsumeAll_steps h.ok hs
    obtain ⟨h3, h4⟩ := h1.sound h.ok
    obtain ⟨k1, k2⟩ := h.setSdb h3 h4
    obtain ⟨m1, m2⟩ := k1.after (ok := b) (clean := r.cleanup1) (fun hb => (h2 hb).refutes h3)
    exact ⟨m1, k2.trans m2⟩

theorem QInv.reduce {p p' : Proc} {cfg : Config} {r : PreRound} (h : QInv F p)
    (hne : p.sys.sol.db.hasEmpty = false)
    (he : p.reduce cfg r = some p') : QInv F p' ∧ PFrame p.sys p'.sys := by
  unfold Proc.reduce at he
  cases hs : asymAll cfg.useAsymm ⟨p.sdb, p.sys.sol.watch, p.sys.sol.trail⟩ with
  | none => rw [hs] at he; simp at he
  | some x =>
    obtain ⟨st, b⟩ := x
    rw [hs] at he
    simp at he; subst he
    have hl := h.inv.l0 hne
    have ha : AOk F ⟨p.sdb, p.sys.sol.watch, p.sys.sol.trail⟩ := ⟨h.ok, hl.core, hl.watch, hl.lim⟩
    obtain ⟨h1, h2, h3, h4⟩ := asymAll_spec ha hs
    obtain ⟨_, hx⟩ := h2.sound h.ok
    have hv : st.s.db.nVars = p.sys.sol.db.nVars := hx.nVars
    have hq : QInv F (Proc.mk
        { p.sys with sol := { p.sys.sol with db := st.s.db, watch := st.watch, trail := st.T } }
        st.s.obj st.s.occ) := by
      refine ⟨⟨h1.ok.db, ?_, ?_, ?_⟩, h1.ok⟩
      · simp only; rw [hv]; exact h.inv.ve
      · simp only; rw [hv, h3.nVars]; exact h.inv.nv
      · intro _
        exact ⟨h1.core, h1.watch, h1.lim, h3.noReason hl.rz⟩
    obtain ⟨m1, m2⟩ := hq.after (ok := b) (clean := r.cleanup2) h4
    refine ⟨m1, PFrame.trans ?_ m2⟩
    exact ⟨hv, h3.nVars, h3.assumptions, rfl, hx.hasEmpty⟩

theorem QInv.eliminate {p p' : Proc} {cfg : Config} {r : PreRound} (h : QInv F p)
    (he : p.eliminate cfg r = some p') : QInv F p' ∧ PFrame p.sys p'.sys := by
  unfold Proc.eliminate at he
  cases hs : eliminateAll cfg.useElim cfg.clauseLim r.order ⟨p.sdb, p.sys.ve, p.sys.sol.trail⟩ with
  | none => rw [hs] at he; simp at he
  | some x =>
    obtain ⟨st, b⟩ := x
    rw [hs] at he
    simp at he; subst he
    obtain ⟨h1, h2, h3, h4, h5⟩ := eliminateAll_sound (F := F)
      (st := ⟨p.sdb, p.sys.ve, p.sys.sol.trail⟩) h.ok h.inv.ve hs
    have hv : st.s.db.nVars = p.sys.sol.db.nVars := h2.nVars
    have hq : QInv F (Proc.mk { sol := { p.sys.sol with db := st.s.db, trail := st.T }, ve := st.ve }
        st.s.obj st.s.occ) := by
      refine ⟨⟨h1.db, h3, ?_, ?_⟩, h1⟩
      · simp only; rw [hv, h4.nVars]; exact h.inv.nv
      · intro hne
        simp only at hne
        have h0 : p.sys.sol.db.hasEmpty = false := by
          cases hb : p.sys.sol.db.hasEmpty with
          | false => rfl
          | true =>
            have := h2.hasEmpty hb
            rw [this] at hne; simp at hne
        have hl := (h.inv.l0 h0).ofDB h1.db h2.next h2.nVars h2.lits
        exact hl.sameTrail h4
    obtain ⟨m1, m2⟩ := hq.after (ok := b) (clean := r.cleanup3) h5
    refine ⟨m1, PFrame.trans ?_ m2⟩
    exact ⟨hv, h4.nVars, h4.assumptions, rfl, h2.hasEmpty⟩

theorem QInv.round {p p' : Proc} {cfg : Config} {r : PreRound} {b : Bool} (h : QInv F p)
    (he : p.round cfg r = some (p', b)) : QInv F p' ∧ PFrame p.sys p'.sys := by
  unfold Proc.round at he
  split at he
  · simp at he
  · rename_i p1 hp1
    obtain ⟨a1, a2⟩ := h.materialize hp1
    split at he
    · simp at he; obtain ⟨rfl, rfl⟩ := he; exact ⟨a1, a2⟩
    · split at he
      · simp at he
      · rename_i p3 hp3
        obtain ⟨p2, hp2, hp3⟩ := Option.bind_eq_some_iff.1 hp3
        obtain ⟨b1, b2⟩ := a1.subsume hp2
        obtain ⟨c1, c2⟩ := b1.materialize hp3
        have f3 := (a2.trans b2).trans c2
        split at he
        · simp at he; obtain ⟨rfl, rfl⟩ := he; exact ⟨c1, f3⟩
        · rename_i hne3
          split at he
          · simp at he
          · rename_i p5 hp5
            obtain ⟨p4, hp4, hp5⟩ := Option.bind_eq_some_iff.1 hp5
            obtain ⟨d1, d2⟩ := c1.reduce (by simpa using hne3) hp4
            obtain ⟨e1, e2⟩ := d1.materialize hp5
            have f5 := (f3.trans d2).trans e2
            split at he
            · simp at he; obtain ⟨rfl, rfl⟩ := he; exact ⟨e1, f5⟩
            · obtain ⟨p6, hp6, hb⟩ := Option.map_eq_some_iff.1 he
              simp at hb; obtain ⟨rfl, rfl⟩ := hb
              obtain ⟨g1, g2⟩ := e1.eliminate hp6
              exact ⟨g1, f5.trans g2⟩

theorem QInv.rounds {cfg : Config} : ∀ (rs : List PreRound) (p : Proc), QInv F p → ∀ p',
    Proc.rounds cfg rs p = some p' → QInv F p' ∧ PFrame p.sys p'.sys
  | [], p, h, p', he => by simp [Proc.rounds] at he; subst he; exact ⟨h, PFrame.refl _⟩
  | r :: rs, p, h, p', he => by
    rw [Proc.rounds] at he
    split at he
    · simp at he
    · rename_i p1 hp1
      simp at he; subst he
      exact h.round hp1
    · rename_i p1 hp1
      obtain ⟨a, b⟩ := h.round hp1
      obtain ⟨c, d⟩ := QInv.rounds rs p1 a p' he
      exact ⟨c, b.trans d⟩

theorem PInv.process {cfg : Config} {rs : List PreRound} {sys sys' : Sys} (h : PInv F sys)
    (he : process cfg rs sys = some sys') : PInv F sys' ∧ PFrame sys sys' := by
  unfold Candy.process at he
  obtain ⟨p, hp, rfl⟩ := Option.map_eq_some_iff.1 he
  have hok : SOk F (SDB.init sys.sol.db) := SOk.init h.db
  have hq : QInv F ⟨sys, (SDB.init sys.sol.db).obj, (SDB.init sys.sol.db).occ⟩ := by
    refine ⟨h, ?_⟩
    have e : (SDB.init sys.sol.db) = ⟨sys.sol.db, (SDB.init sys.sol.db).obj,
      (SDB.init sys.sol.db).occ⟩ := by
      conv => lhs; rw [show SDB.init sys.sol.db = ⟨(SDB.init sys.sol.db).db,
        (SDB.init sys.sol.db).obj, (SDB.init sys.sol.db).occ⟩ from rfl, init_db]
    rw [e] at hok; exact hok
  obtain ⟨a, b⟩ := QInv.rounds rs _ hq p hp
  exact ⟨a.inv, b⟩

/-! ### Clause database reduction -/

theorem mem_reduceVictims {km : Bool} {db : DB} {xs : List Nat} {c : Nat}
    (h : c ∈ reduceVictims km db xs) : c ∈ xs := by
  unfold reduceVictims at h
  split at h
  · dsimp only at h
    split at h
    · split at h
      · simp at h
      · exact List.mem_of_mem_drop ((List.dropWhile_sublist _).subset h)
    · exact List.mem_of_mem_drop h
  · simp at h

theorem removeFold : ∀ (cs : List Nat) (db : DB), DBOk F db → (∀ c ∈ cs, c < db.next) →
    DBOk F (cs.foldl DB.removeClause db) ∧ DBExt db (cs.foldl DB.removeClause db) ∧
      (cs.foldl DB.removeClause db).hasEmpty = db.hasEmpty
  | [], db, h, _ => ⟨h, DBExt.refl _, rfl⟩
  | c :: cs, db, h, hm => by
    rw [List.foldl_cons]
    obtain ⟨a, b, d⟩ := removeFold cs _ (h.removeClause (hm c (by simp))) (fun e he => by
      rw [removeClause_next]; exact hm e (by simp [he]))
    exact ⟨a, (DBExt.removeClause ..).trans b, by rw [d]; simp⟩

/-! ### The loop of `solve` -/

theorem core_reset {db : DB} (h : DBOk F db) (hv : T.nVars = db.nVars) :
    Core F db.nVars db.next db.bin db.store T.reset where
  tinv := Trail.reset_inv T
  nv := hv
  wf := h.wf
  nd := h.nd
  ent := h.ent
  rsome pre p post c hs := by simp [Trail.reset] at hs
  rnone pre p post hs := by simp [Trail.reset] at hs
  binInv := h.binInv

theorem noReason_reset (T : Trail) : NoReason T.reset := by
  intro l hl; simp [Trail.reset] at hl

/-- A core without reason clauses does not depend on the clauses. -/
theorem Core.rebase {db' : DB} (h : Core F nV next bin store T) (hr : NoReason T)
    (hd : DBOk F db') (hv : db'.nVars = nV) : Core F db'.nVars db'.next db'.bin db'.store T where
  tinv := h.tinv
  nv := h.nv.trans hv.symm
  wf := hd.wf
  nd := hd.nd
  ent := hd.ent
  rsome pre p post c hs hr' := by
    rw [hr p (by rw [hs]; simp)] at hr'; simp at hr'
  rnone := h.rnone
  binInv := hd.binInv

/-- Invariant between the iterations of the loop in `solve`. -/
structure RoundInv (F : CNF) (sys : Sys) : Prop where
  db : DBOk F sys.sol.db
  ve : VEOk F sys.sol.db.nVars sys.ve
  nv : sys.sol.trail.nVars = sys.sol.db.nVars
  watch : WatchInv sys.sol.db.next sys.sol.db.store sys.sol.watch

theorem RoundInv.reset {sys : Sys} (h : RoundInv F sys) :
    PInv F { sys with sol := { sys.sol with trail := sys.sol.trail.reset } } where
  db := h.db
  ve := h.ve
  nv := h.nv
  l0 _ := ⟨core_reset h.db h.nv, h.watch, rfl, noReason_reset _⟩

/-- `reorganize` followed by `propagator.reset`. -/
theorem PInv.reorganize {sys : Sys} (h : PInv F sys) :
    PInv F { sys with sol := { sys.sol with
      db := sys.sol.db.reorganize, watch := resetWatch sys.sol.db.reorganize } } where
  db := h.db.reorganize
  ve := h.ve
  nv := h.nv
  l0 he := by
    have hl := h.l0 he
    exact ⟨hl.core.rebase hl.rz h.db.reorganize rfl, resetWatch_inv h.db.reorganize, hl.lim, hl.rz⟩

theorem PInv.reduceStep {cfg : Config} {r : Round} {sys sys' : Sys} (h : PInv F sys)
    (hs : ∀ xs, ∀ x ∈ r.sort xs, x ∈ xs)
    (he : reduceStep cfg r sys = some sys') : PInv F sys' ∧ PFrame sys sys' := by
  unfold Candy.reduceStep at he
  split at he
  · dsimp only at he
    obtain ⟨sys1, h1, rfl⟩ := Option.map_eq_some_iff.1 he
    have key : PInv F sys1 ∧ PFrame sys sys1 := by
      split at h1
      · exact h.process h1
      · simp at h1; subst h1
        obtain ⟨a, b, c⟩ := removeFold (reduceVictims cfg.keepMedian sys.sol.db
          (r.sort (reduceCandidates cfg.persistentLBD sys.sol.db))) sys.sol.db h.db (fun c hc =>
            h.db.mem c (List.mem_filter.1 (hs _ _ (mem_reduceVictims hc))).1)
        refine ⟨⟨a, ?_, ?_, ?_⟩, ⟨b.nVars, rfl, rfl, rfl, b.hasEmpty⟩⟩
        · simp only [reduceDB]; rw [b.nVars]; exact h.ve
        · simp only [reduceDB]; rw [b.nVars]; exact h.nv
        · intro hne
          simp only [reduceDB] at hne ⊢
          rw [c] at hne
          exact (h.l0 hne).ofDB a b.next b.nVars b.lits
    obtain ⟨k1, k2⟩ := key
    refine ⟨k1.reorganize, k2.trans ⟨rfl, rfl, rfl, rfl, id⟩⟩
  · simp at he; subst he; exact ⟨h, PFrame.refl _⟩

theorem PInv.sinv {sys : Sys} (h : PInv F sys) (hne : sys.sol.db.hasEmpty = false)
    (hb : ∀ l ∈ sys.sol.trail.assumptions, l.var < sys.sol.db.nVars) :
    SInv F (fun _ => False) sys.sol := by
  have hl := h.l0 hne
  exact {
    db := h.db
    core := hl.core
    watch := hl.watch
    limq := by intro k hk; rw [hl.lim] at hk; simp at hk
    cinv := ⟨fun _ h => h.elim, fun _ h => h.elim, fun _ h => h.elim⟩
    alt := fun _ h => h.elim
    units := fun _ h => h.elim
    nonempty := fun _ h => h.elim
    asmBound := hb
    asm := by
      intro p hp _ h0
      rw [level_zero hl.core.tinv hl.lim hp] at h0; omega
    asmTrue := by
      intro i p _ hi
      simp [Trail.decisionLevel, hl.lim] at hi }

/-- What `solve` promises when it ends with status `l_False`. -/
def UnsatOk (F : CNF) (as : List Lit) (conflict : List Lit) : Prop :=
  (conflict = [] ∧ ¬ Satisfiable F) ∨
  (conflict ≠ [] ∧ Entails F conflict ∧ ∀ l ∈ conflict, l.neg ∈ as)

/-- What a `solve` loop keeps. -/
structure LoopOk (F : CNF) (sys sys' : Sys) : Prop where
  inv : RoundInv F sys'
  nVars : sys'.sol.db.nVars = sys.sol.db.nVars
  assumptions : sys'.sol.trail.assumptions = sys.sol.trail.assumptions

theorem not_sat_of_entails_nil (h : Entails F []) : ¬ Satisfiable F := by
  rintro ⟨a, ha⟩
  obtain ⟨l, hl, _⟩ := h a ha
  simp at hl

theorem search_watch {n : Nat} {o : Nat → Choice} {s s' : Solver} {r : Option Bool}
    (h : SInv F A s) (ho : ∀ i, (o i).Valid) (he : search n o s = some (s', r))
    (hr : r ≠ some false) : WatchInv s'.db.next s'.db.store s'.watch := by
  obtain ⟨_, _, _, h4, _, _⟩ := search_spec n o A s h ho s' r he
  obtain ⟨_, A', _, h5, _⟩ := h4 hr
  exact h5.watch

theorem solveRound_spec {cfg : Config} {r : Round} {sys sys' : Sys} {b : Option Bool}
    (h : RoundInv F sys) (hr : r.Valid)
    (hb : ∀ l ∈ sys.sol.trail.assumptions, l.var < sys.sol.db.nVars)
    (hcf : sys.sol.conflict = [])
    (he : solveRound cfg r sys = some (sys', b)) :
    DBOk F sys'.sol.db ∧ VEOk F sys'.sol.db.nVars sys'.ve ∧
    sys'.sol.trail.nVars = sys'.sol.db.nVars ∧
    sys'.sol.db.nVars = sys.sol.db.nVars ∧
    sys'.sol.trail.assumptions = sys.sol.trail.assumptions ∧
    (b ≠ some false → sys'.sol.conflict = [] ∧
      WatchInv sys'.sol.db.next sys'.sol.db.store sys'.sol.watch) ∧
    (b = some false → UnsatOk F sys.sol.trail.assumptions sys'.sol.conflict) := by
  unfold solveRound at he
  dsimp only at he
  split at he
  · simp at he
  · rename_i sys1 h1
    obtain ⟨a1, a2⟩ := h.reset.reduceStep hr.sort h1
    obtain ⟨s, m1, m2, m3, _, _⟩ := a1.materialize
    rw [m1] at he
    simp only at he
    have hf := a2.trans m3
    have hnv : s.db.nVars = sys.sol.db.nVars := hf.nVars
    have has : s.trail.assumptions = sys.sol.trail.assumptions := hf.assumptions
    have hcs : s.conflict = [] := by
      have := hf.conflict; simp only at this; rw [this]; exact hcf
    split at he
    · rename_i hE
      simp only [Option.some.injEq, Prod.mk.injEq] at he
      obtain ⟨rfl, rfl⟩ := he
      refine ⟨m2.db, m2.ve, m2.nv, hnv, has, by simp, fun _ => ?_⟩
      exact Or.inl ⟨hcs, not_sat_of_entails_nil (m2.db.empt hE)⟩
    · rename_i hE
      have hE : s.db.hasEmpty = false := by simpa using hE
      obtain ⟨x, hx, hxe⟩ := Option.map_eq_some_iff.1 he
      obtain ⟨s', b'⟩ := x
      simp only [Prod.mk.injEq] at hxe
      obtain ⟨rfl, rfl⟩ := hxe
      have hS : SInv F (fun _ => False) s := m2.sinv hE (by
        intro l hl
        simp only at hl ⊢
        rw [has] at hl; rw [hnv]; exact hb l hl)
      obtain ⟨_, f1, f2, f3, f4, _⟩ := search_spec r.steps r.choice _ s hS hr.choice s' b' hx
      refine ⟨f2, ?_, ?_, f1.nVars.trans hnv, f1.assumptions.trans has, ?_, ?_⟩
      · simp only; rw [f1.nVars]; exact m2.ve
      · simp only; rw [f1.tnVars, f1.nVars]; exact m2.nv
      · intro hb'
        exact ⟨(f3 hb').1.trans hcs, search_watch hS hr.choice hx hb'⟩
      · intro hb'
        rcases f4 hb' with ⟨g1, g2⟩ | ⟨core, g1, g2, g3, g4⟩
        · exact Or.inl ⟨g1.trans hcs, g2⟩
        · right
          simp only
          rw [g2, hcs, List.nil_append]
          exact ⟨g1, g3, by rw [← has]; exact g4⟩

theorem solveLoop_spec {cfg : Config} : ∀ (rs : List Round) (sys : Sys), RoundInv F sys →
    (∀ r ∈ rs, r.Valid) →
    (∀ l ∈ sys.sol.trail.assumptions, l.var < sys.sol.db.nVars) → sys.sol.conflict = [] →
    ∀ sys' b, solveLoop cfg rs sys = some (sys', b) →
    DBOk F sys'.sol.db ∧ VEOk F sys'.sol.db.nVars sys'.ve ∧
    sys'.sol.trail.nVars = sys'.sol.db.nVars ∧
    sys'.sol.db.nVars = sys.sol.db.nVars ∧
    sys'.sol.trail.assumptions = sys.sol.trail.assumptions ∧
    (b ≠ some false → sys'.sol.conflict = []) ∧
    (b = some false → UnsatOk F sys.sol.trail.assumptions sys'.sol.conflict)
  | [], sys, h, _, _, hcf, sys', b, he => by
    simp only [solveLoop, Option.some.injEq, Prod.mk.injEq] at he
    obtain ⟨rfl, rfl⟩ := he
    exact ⟨h.db, h.ve, h.nv, rfl, rfl, fun _ => hcf, by simp⟩
  | r :: rs, sys, h, hr, hb, hcf, sys', b, he => by
    rw [solveLoop] at he
    split at he
    · simp at he
    · rename_i sys1 h1
      obtain ⟨a1, a2, a3, a4, a5, a6, _⟩ := solveRound_spec h (hr r (by simp)) hb hcf h1
      obtain ⟨a6, a7⟩ := a6 (by simp)
      obtain ⟨c1, c2, c3, c4, c5, c6, c7⟩ := solveLoop_spec rs sys1 ⟨a1, a2, a3, a7⟩
        (fun q hq => hr q (by simp [hq])) (by rw [a5, a4]; exact hb) a6 sys' b he
      exact ⟨c1, c2, c3, c4.trans a4, c5.trans a5, c6, fun hh => by rw [← a5]; exact c7 hh⟩
    · rename_i sys1 b1 h1
      simp only [Option.some.injEq, Prod.mk.injEq] at he
      obtain ⟨rfl, rfl⟩ := he
      obtain ⟨a1, a2, a3, a4, a5, a6, a7⟩ := solveRound_spec h (hr r (by simp)) hb hcf h1
      exact ⟨a1, a2, a3, a4, a5, fun hb' => (a6 hb').1, a7⟩

/-! ### Start of `solve` -/

theorem VEOk.undo {ve : VE} (h : VEOk F nV ve) (T : Trail) (v : Nat) :
    VEOk F nV (ve.undo T v).2.1 ∧ (∀ c ∈ (ve.undo T v).1, Entails F c ∧ (∀ l ∈ c, l.var < nV) ∧
      (c.map Lit.var).Nodup) ∧ TSame T (ve.undo T v).2.2 := by
  have hu : ∀ w, ∀ c ∈ (ve.undo T v).2.1.cls w, c ∈ ve.cls w := by
    intro w c hc
    simp only [VE.undo, upd_apply] at hc
    split at hc
    · simp at hc
    · exact hc
  refine ⟨⟨fun w c hc => h.ent w c (hu w c hc), fun w c hc => h.wf w c (hu w c hc),
    fun w c hc => h.nd w c (hu w c hc)⟩, ?_, TSame.setDecision ..⟩
  intro c hc
  exact ⟨h.ent v c hc, h.wf v c hc, h.nd v c hc⟩

theorem resetLoop_spec : ∀ (ls : List Lit) (ve : VE) (T : Trail) (acc : List Clause), VEOk F nV ve →
    (∀ c ∈ acc, Entails F c ∧ (∀ l ∈ c, l.var < nV) ∧ (c.map Lit.var).Nodup) →
    VEOk F nV (VE.resetLoop ls ve T acc).2.1 ∧
    (∀ c ∈ (VE.resetLoop ls ve T acc).1, Entails F c ∧ (∀ l ∈ c, l.var < nV) ∧
      (c.map Lit.var).Nodup) ∧ TSame T (VE.resetLoop ls ve T acc).2.2
  | [], ve, T, acc, h, ha => ⟨h, ha, TSame.refl _⟩
  | l :: ls, ve, T, acc, h, ha => by
    rw [VE.resetLoop]
    dsimp only
    have h' : VEOk F nV { ve with frozen := upd ve.frozen l.var true } := ⟨h.ent, h.wf, h.nd⟩
    split
    · obtain ⟨u1, u2, u3⟩ := h'.undo T l.var
      obtain ⟨r1, r2, r3⟩ := resetLoop_spec ls _ _ (acc ++ _) u1 (by
        intro c hc
        rcases List.mem_append.1 hc with hc | hc
        · exact ha c hc
        · exact u2 c hc)
      exact ⟨r1, r2, u3.trans r3⟩
    · exact resetLoop_spec ls _ T acc h' ha

/-- Invariant between API calls. -/
structure SysOk (F : CNF) (sys : Sys) : Prop where
  db : DBOk F sys.sol.db
  ve : VEOk F sys.sol.db.nVars sys.ve
  nv : sys.sol.trail.nVars = sys.sol.db.nVars

theorem addCorrection_eq (s : Solver) (c : Clause) :
    addCorrection s c = { s with db := (s.db.createClause c).1, watch := match c with
      | x :: y :: _ :: _ => DB.addBin s.watch s.db.next x y
      | _ => s.watch } := by
  unfold addCorrection
  simp only [createClause_id]
  rcases c with _ | ⟨x, _ | ⟨y, _ | ⟨z, r⟩⟩⟩ <;> rfl

theorem addCorrection_spec {s : Solver} (hd : DBOk F s.db)
    (hw : WatchInv s.db.next s.db.store s.watch) {c : Clause} (he : Entails F c)
    (hv : ∀ l ∈ c, l.var < s.db.nVars) (hn : (c.map Lit.var).Nodup) :
    DBOk F (addCorrection s c).db ∧
    WatchInv (addCorrection s c).db.next (addCorrection s c).db.store (addCorrection s c).watch := by
  have hd' := hd.createClause (lbd := 0) (lem := false) hv hn he
  have hx := DBExt.createClause s.db c 0 false
  rw [addCorrection_eq]
  refine ⟨hd', ?_⟩
  have hw' := hw.congr hx.next hx.lits
  match c with
  | [] => exact hw'
  | [x] => exact hw'
  | [x, y] => exact hw'
  | x :: y :: z :: r =>
    refine hw'.attach (r := z :: r) ?_ (by simp) ?_ (by simp) ?_
    · simp
    · rintro rfl; simp at hn
    · intro p hm
      obtain ⟨w, h1, h2⟩ := List.mem_map.1 hm
      have := (hw.wmem p w h1).1
      omega

theorem addCorrection_frame (s : Solver) (c : Clause) :
    (addCorrection s c).db.nVars = s.db.nVars ∧ (addCorrection s c).trail = s.trail ∧
    (addCorrection s c).conflict = s.conflict := by
  rw [addCorrection_eq]; simp

theorem corrections_spec : ∀ (cs : List Clause) (s : Solver), DBOk F s.db →
    WatchInv s.db.next s.db.store s.watch →
    (∀ c ∈ cs, Entails F c ∧ (∀ l ∈ c, l.var < s.db.nVars) ∧ (c.map Lit.var).Nodup) →
    DBOk F (cs.foldl addCorrection s).db ∧
    WatchInv (cs.foldl addCorrection s).db.next (cs.foldl addCorrection s).db.store
      (cs.foldl addCorrection s).watch ∧
    (cs.foldl addCorrection s).db.nVars = s.db.nVars ∧
    (cs.foldl addCorrection s).trail = s.trail ∧
    (cs.foldl addCorrection s).conflict = s.conflict
  | [], s, hd, hw, _ => ⟨hd, hw, rfl, rfl, rfl⟩
  | c :: cs, s, hd, hw, hc => by
    rw [List.foldl_cons]
    obtain ⟨h1, h2, h3⟩ := hc c (by simp)
    obtain ⟨a1, a2⟩ := addCorrection_spec hd hw h1 h2 h3
    obtain ⟨b1, b2, b3⟩ := addCorrection_frame s c
    obtain ⟨d1, d2, d3, d4, d5⟩ := corrections_spec cs _ a1 a2 (by
      intro d hd'; rw [b1]; exact hc d (by simp [hd']))
    exact ⟨d1, d2, d3.trans b1, d4.trans b2, d5.trans b3⟩

theorem solveStart_spec {sys : Sys} (h : SysOk F sys) :
    PInv F (solveStart sys) ∧ RoundInv F (solveStart sys) ∧
    (solveStart sys).sol.db.nVars = sys.sol.db.nVars ∧
    (solveStart sys).sol.trail.assumptions = sys.sol.trail.assumptions ∧
    (solveStart sys).sol.conflict = [] := by
  have h' : VEOk F sys.sol.db.nVars { sys.ve with frozen := fun _ => false } :=
    ⟨h.ve.ent, h.ve.wf, h.ve.nd⟩
  obtain ⟨r1, r2, r3⟩ := resetLoop_spec sys.sol.trail.reset.assumptions
    { sys.ve with frozen := fun _ => false } sys.sol.trail.reset [] h' (by simp)
  unfold solveStart
  dsimp only
  unfold VE.reset
  generalize VE.resetLoop sys.sol.trail.reset.assumptions
    { sys.ve with frozen := fun _ => false } sys.sol.trail.reset [] = r at *
  obtain ⟨d1, d2, d3, d4, d5⟩ := corrections_spec (F := F) r.1
    ({ sys.sol with conflict := [], trail := r.2.2, watch := resetWatch sys.sol.db } : Solver)
    h.db (resetWatch_inv h.db) r2
  simp only at d3 d4 d5
  have hcore : Core F sys.sol.db.nVars sys.sol.db.next sys.sol.db.bin sys.sol.db.store r.2.2 := by
    have hl : L0 F { sys.sol with trail := sys.sol.trail.reset, watch := resetWatch sys.sol.db } :=
      ⟨core_reset h.db h.nv, resetWatch_inv h.db, rfl, noReason_reset _⟩
    exact (hl.sameTrail r3).core
  have hnr : NoReason r.2.2 := by
    intro l hl
    rw [r3.stack] at hl
    simp [Trail.reset] at hl
  have hnv : (List.foldl addCorrection
      ({ sys.sol with conflict := [], trail := r.2.2, watch := resetWatch sys.sol.db } : Solver)
      r.1).trail.nVars = (List.foldl addCorrection
      ({ sys.sol with conflict := [], trail := r.2.2, watch := resetWatch sys.sol.db } : Solver)
      r.1).db.nVars := by
    rw [d4, d3, r3.nVars]; exact h.nv
  refine ⟨⟨d1, ?_, hnv, fun _ => ⟨?_, d2, ?_, ?_⟩⟩, ⟨d1, ?_, hnv, d2⟩, d3, ?_, d5⟩
  · simp only; rw [d3]; exact r1
  · rw [d4]; exact hcore.rebase hnr d1 d3
  · rw [d4, r3.lim]; rfl
  · rw [d4]; exact hnr
  · simp only; rw [d3]; exact r1
  · rw [d4, r3.assumptions]; rfl

/-! ### solve -/

theorem extendVar_nVars {T T' : Trail} {v : Nat} {cs : List Clause}
    (h : extendVar T v cs = some T') : T'.nVars = T.nVars := by
  have hd : ∀ T', extendVar.extendDefault T v cs = some T' → T'.nVars = T.nVars := by
    intro T' h
    unfold extendVar.extendDefault at h
    split at h
    · simp at h
    · split at h
      · simp at h; subst h; rfl
      · simp at h; subst h; rfl
  unfold extendVar at h
  split at h
  · split at h
    · simp at h; subst h; rfl
    · exact hd T' h
  · exact hd T' h

theorem extendModel_nVars {cls : Nat → List Clause} : ∀ (vs : List Nat) (T T' : Trail),
    extendModel cls vs T = some T' → T'.nVars = T.nVars
  | [], T, T', h => by simp [extendModel] at h; subst h; rfl
  | v :: vs, T, T', h => by
    rw [extendModel] at h
    split at h
    · simp at h
    · rename_i T1 h1
      exact (extendModel_nVars vs T1 T' h).trans (extendVar_nVars h1)

theorem extendVar_assumptions {T T' : Trail} {v : Nat} {cs : List Clause}
    (h : extendVar T v cs = some T') : T'.assumptions = T.assumptions := by
  have hd : ∀ T', extendVar.extendDefault T v cs = some T' → T'.assumptions = T.assumptions := by
    intro T' h
    unfold extendVar.extendDefault at h
    split at h
    · simp at h
    · split at h
      · simp at h; subst h; rfl
      · simp at h; subst h; rfl
  unfold extendVar at h
  split at h
  · split at h
    · simp at h; subst h; rfl
    · exact hd T' h
  · exact hd T' h

theorem extendModel_assumptions {cls : Nat → List Clause} : ∀ (vs : List Nat) (T T' : Trail),
    extendModel cls vs T = some T' → T'.assumptions = T.assumptions
  | [], T, T', h => by simp [extendModel] at h; subst h; rfl
  | v :: vs, T, T', h => by
    rw [extendModel] at h
    split at h
    · simp at h
    · rename_i T1 h1
      exact (extendModel_assumptions vs T1 T' h).trans (extendVar_assumptions h1)

theorem solve_sound {cfg : Config} {pre : List PreRound} {rounds : List Round} {sys sys' : Sys}
    {res : Result} (h : SysOk F sys) (hr : ∀ r ∈ rounds, r.Valid)
    (hb : ∀ l ∈ sys.sol.trail.assumptions, l.var < sys.sol.db.nVars)
    (he : solve cfg pre rounds sys = some (sys', res)) :
    SysOk F sys' ∧ sys'.sol.db.nVars = sys.sol.db.nVars ∧
    sys'.sol.trail.assumptions = sys.sol.trail.assumptions ∧
    (res.status ≠ some false → res.conflict = []) ∧
    (res.status = some false → UnsatOk F sys.sol.trail.assumptions res.conflict ∧
      (res.conflict = [] → ∃ log, sys'.sol.db.log = log ++ [.empty])) := by
  obtain ⟨p1, p2, p3, p4, p5⟩ := solveStart_spec h
  unfold solve at he
  dsimp only at he
  split at he
  · simp at he
  · rename_i sys1 hsys1
    have key : RoundInv F sys1 ∧ sys1.sol.db.nVars = sys.sol.db.nVars ∧
        sys1.sol.trail.assumptions = sys.sol.trail.assumptions ∧ sys1.sol.conflict = [] := by
      split at hsys1
      · obtain ⟨sys2, h2, rfl⟩ := Option.map_eq_some_iff.1 hsys1
        obtain ⟨q1, q2⟩ := p1.process h2
        exact ⟨⟨q1.db, q1.ve, q1.nv, resetWatch_inv q1.db⟩, q2.nVars.trans p3,
          q2.assumptions.trans p4, q2.conflict.trans p5⟩
      · simp at hsys1; subst hsys1
        exact ⟨p2, p3, p4, p5⟩
    obtain ⟨k1, k2, k3, k4⟩ := key
    split at he
    · simp at he
    · rename_i sys2 status hs2
      have key2 : DBOk F sys2.sol.db ∧ VEOk F sys2.sol.db.nVars sys2.ve ∧
          sys2.sol.trail.nVars = sys2.sol.db.nVars ∧ sys2.sol.db.nVars = sys.sol.db.nVars ∧
          sys2.sol.trail.assumptions = sys.sol.trail.assumptions ∧
          (status ≠ some false → sys2.sol.conflict = []) ∧
          (status = some false → UnsatOk F sys.sol.trail.assumptions sys2.sol.conflict) := by
        split at hs2
        · rename_i hE
          simp only [Option.some.injEq, Prod.mk.injEq] at hs2
          obtain ⟨rfl, rfl⟩ := hs2
          exact ⟨k1.db, k1.ve, k1.nv, k2, k3, by simp,
            fun _ => Or.inl ⟨k4, not_sat_of_entails_nil (k1.db.empt hE)⟩⟩
        · obtain ⟨a1, a2, a3, a4, a5, a6, a7⟩ := solveLoop_spec rounds sys1 k1 hr
            (by rw [k3, k2]; exact hb) k4 sys2 status hs2
          exact ⟨a1, a2, a3, a4.trans k2, a5.trans k3, a6, fun hh => by rw [← k3]; exact a7 hh⟩
      obtain ⟨b1, b2, b3, b4, b7, b5, b6⟩ := key2
      have hba : (sys2.sol.trail.backtrack 0).assumptions = sys.sol.trail.assumptions := by
        rw [Trail.backtrack_assumptions]; exact b7
      have hbt : (sys2.sol.trail.backtrack 0).nVars = sys2.sol.db.nVars := by
        rw [Trail.backtrack_nVars]; exact b3
      unfold solveEnd at he
      split at he
      · simp only [Option.some.injEq, Prod.mk.injEq] at he
        obtain ⟨rfl, rfl⟩ := he
        exact ⟨⟨b1, b2, hbt⟩, b4, hba, fun _ => b5 (by simp), by simp⟩
      · simp only [Option.some.injEq, Prod.mk.injEq] at he
        obtain ⟨rfl, rfl⟩ := he
        have hU := b6 rfl
        by_cases hc : sys2.sol.conflict = []
        · have hns : ¬ Satisfiable F := by
            rcases hU with hU | hU
            · exact hU.2
            · exact (hU.1 hc).elim
          have hE : Entails F [] := fun a ha => (hns ⟨a, ha⟩).elim
          simp only [hc, List.isEmpty_nil, if_true]
          exact ⟨⟨b1.emptyClause hE, b2, hbt⟩, b4, hba, by simp, fun _ => ⟨Or.inl ⟨rfl, hns⟩,
            fun _ => ⟨_, rfl⟩⟩⟩
        · have : sys2.sol.conflict.isEmpty = false := by simpa using hc
          simp only [this]
          exact ⟨⟨b1, b2, hbt⟩, b4, hba, by simp, fun _ => ⟨hU, fun hh => (hc hh).elim⟩⟩
      · split at he
        · simp at he
        · rename_i T hT
          simp only [Option.some.injEq, Prod.mk.injEq] at he
          obtain ⟨rfl, rfl⟩ := he
          refine ⟨⟨b1, b2, ?_⟩, b4, ?_, fun _ => b5 (by simp), by simp⟩
          · simp only
            rw [Trail.backtrack_nVars, extendModel_nVars _ _ _ hT]; exact b3
          · simp only
            rw [Trail.backtrack_assumptions, extendModel_assumptions _ _ _ hT]; exact b7

/-! ### init -/

theorem Entails.append_left {c : Clause} (h : Entails F c) : Entails (F ++ G) c :=
  fun a ha => h a (sat_append.1 ha).1

theorem LineOk.append {ln : ProofLine} (h : LineOk F ln) : LineOk (F ++ G) ln := by
  cases ln with
  | add c => exact Entails.append_left h
  | del c => trivial
  | empty => exact Entails.append_left h

theorem Known.append {log : List ProofLine} {c : Clause} (h : Known F log c) (G : CNF) :
    Known (F ++ G) log c := by
  obtain ⟨d, h1, h2⟩ := h
  exact ⟨d, h1.imp (fun h => List.mem_append_left _ h) id, h2⟩

theorem DBOk.append {db : DB} (h : DBOk F db) (G : CNF) : DBOk (F ++ G) db where
  mem := h.mem
  nodup := h.nodup
  wf := h.wf
  nd := h.nd
  ent c hc := (h.ent c hc).append_left
  binSym := h.binSym
  binInv := h.binInv
  binAll := h.binAll
  empt he := (h.empt he).append_left
  emptAll := h.emptAll
  log ln hl := (h.log ln hl).append
  hist c hc := (h.hist c hc).append G
  dels pre d post he := (h.dels pre d post he).append G
  short := h.short

theorem VEOk.append {ve : VE} (h : VEOk F nV ve) (G : CNF) {nV' : Nat} (hn : nV ≤ nV') :
    VEOk (F ++ G) nV' ve where
  ent v c hc := (h.ent v c hc).append_left
  wf v c hc l hl := Nat.lt_of_lt_of_le (h.wf v c hc l hl) hn
  nd := h.nd

theorem createFold_spec {f : Clause → Nat} {lem : Bool} : ∀ (cs : List Clause) (db : DB), DBOk F db →
    (∀ c ∈ cs, Entails F c ∧ (∀ l ∈ c, l.var < db.nVars) ∧ (c.map Lit.var).Nodup) →
    (lem = true → ∀ c ∈ cs, c ∈ F) →
    DBOk F (cs.foldl (fun d c => (d.createClause c (f c) lem).1) db) ∧
    (cs.foldl (fun d c => (d.createClause c (f c) lem).1) db).nVars = db.nVars
  | [], db, h, _, _ => ⟨h, rfl⟩
  | c :: cs, db, h, hc, hF => by
    rw [List.foldl_cons]
    obtain ⟨h1, h2, h3⟩ := hc c (by simp)
    obtain ⟨a, b⟩ := createFold_spec (f := f) (lem := lem) cs _
      (h.createClause h2 h3 h1 (fun hl => hF hl c (by simp))) (by
      intro d hd; rw [createClause_nVars]; exact hc d (by simp [hd]))
      (fun hl d hd => hF hl d (by simp [hd]))
    exact ⟨a, by rw [b]; simp⟩

theorem DBOk.grow {db : DB} (h : DBOk F db) {n : Nat} (hn : db.nVars ≤ n) :
    DBOk F { db with nVars := n } where
  mem := h.mem
  nodup := h.nodup
  wf c hc l hl := Nat.lt_of_lt_of_le (h.wf c hc l hl) hn
  nd := h.nd
  ent := h.ent
  binSym := h.binSym
  binInv := h.binInv
  binAll := h.binAll
  empt := h.empt
  emptAll := h.emptAll
  log := h.log
  hist := h.hist
  dels := h.dels
  short := h.short

theorem entails_of_mem {c : Clause} (h : c ∈ F) : Entails F c := fun _ ha => ha c h

theorem dbInit_spec {db : DB} (h : DBOk F db) {nv : Nat} {G : CNF} {lem : Bool}
    (hG : WfCNF (max db.nVars nv) G) :
    DBOk (F ++ G) (db.init nv G lem) ∧ (db.init nv G lem).nVars = max db.nVars nv := by
  unfold DB.init
  have h1 : DBOk (F ++ G) (if db.nVars < nv then { db with nVars := nv } else db) ∧
      (if db.nVars < nv then { db with nVars := nv } else db).nVars = max db.nVars nv := by
    split
    · exact ⟨(h.append G).grow (by omega), by simp only; omega⟩
    · exact ⟨h.append G, by omega⟩
  dsimp only
  obtain ⟨a, b⟩ := createFold_spec (f := fun c => if lem then 0 else c.length) (lem := lem) G _ h1.1
    (by
      intro c hc
      rw [h1.2]
      exact ⟨entails_of_mem (List.mem_append_right _ hc), (hG c hc).1, (hG c hc).2⟩)
    (fun _ c hc => List.mem_append_right _ hc)
  exact ⟨a, by rw [b]; exact h1.2⟩

/-- Invariant while eliminated variables are restored (the trail may be too short). -/
structure InitOk (F : CNF) (sys : Sys) : Prop where
  db : DBOk F sys.sol.db
  ve : VEOk F sys.sol.db.nVars sys.ve

theorem restoreLits_spec : ∀ (ls : List Lit) (sys : Sys), InitOk F sys →
    InitOk F (restoreLits ls sys) ∧ (restoreLits ls sys).sol.db.nVars = sys.sol.db.nVars ∧
    (restoreLits ls sys).sol.trail.nVars = sys.sol.trail.nVars ∧
    (restoreLits ls sys).sol.trail.assumptions = sys.sol.trail.assumptions
  | [], sys, h => ⟨h, rfl, rfl, rfl⟩
  | l :: ls, sys, h => by
    rw [restoreLits]
    split
    · dsimp only
      obtain ⟨u1, u2, u3⟩ := h.ve.undo sys.sol.trail l.var
      obtain ⟨c1, c2⟩ := createFold_spec (f := fun _ => 0) (lem := false)
        (sys.ve.undo sys.sol.trail l.var).1 sys.sol.db h.db u2 (by simp)
      obtain ⟨r1, r2, r3, r4⟩ := restoreLits_spec ls
        { sol := { sys.sol with
            db := (sys.ve.undo sys.sol.trail l.var).1.foldl (fun d c => (d.createClause c).1) sys.sol.db
            trail := (sys.ve.undo sys.sol.trail l.var).2.2 }
          ve := (sys.ve.undo sys.sol.trail l.var).2.1 } ⟨c1, by simp only; rw [c2]; exact u1⟩
      exact ⟨r1, r2.trans c2, r3.trans u3.nVars, r4.trans u3.assumptions⟩
    · exact restoreLits_spec ls sys h

theorem restoreAll_spec : ∀ (cs : CNF) (sys : Sys), InitOk F sys →
    InitOk F (restoreAll cs sys) ∧ (restoreAll cs sys).sol.db.nVars = sys.sol.db.nVars ∧
    (restoreAll cs sys).sol.trail.nVars = sys.sol.trail.nVars ∧
    (restoreAll cs sys).sol.trail.assumptions = sys.sol.trail.assumptions
  | [], sys, h => ⟨h, rfl, rfl, rfl⟩
  | c :: cs, sys, h => by
    rw [restoreAll]
    split
    · exact ⟨h, rfl, rfl, rfl⟩
    · obtain ⟨a1, a2, a3, a4⟩ := restoreLits_spec c sys h
      obtain ⟨b1, b2, b3, b4⟩ := restoreAll_spec cs _ a1
      exact ⟨b1, b2.trans a2, b3.trans a3, b4.trans a4⟩

theorem init_sound {sys : Sys} (h : SysOk F sys) {nv : Nat} {G : CNF} {lem : Bool}
    (hG : WfCNF (max sys.sol.db.nVars nv) G) :
    SysOk (F ++ G) (sys.init nv G lem) ∧
    (sys.init nv G lem).sol.db.nVars = max sys.sol.db.nVars nv ∧
    (sys.init nv G lem).sol.trail.assumptions = sys.sol.trail.assumptions := by
  obtain ⟨d1, d2⟩ := dbInit_spec h.db (lem := lem) hG
  have hi : InitOk (F ++ G)
      { sys with sol := { sys.sol with db := sys.sol.db.init nv G lem } } :=
    ⟨d1, by simp only; rw [d2]; exact h.ve.append G (by omega)⟩
  obtain ⟨a1, a2, a3, a4⟩ := restoreAll_spec G _ hi
  unfold Sys.init
  dsimp only at *
  refine ⟨⟨a1.db, a1.ve, ?_⟩, a2.trans d2, ?_⟩
  · simp only [Trail.init]
    have := h.nv
    split
    · rfl
    · rw [a3, a2, d2] at *
      omega
  · simp only [Trail.init]
    split
    · exact a4
    · exact a4

theorem new_ok (recalc : Bool) : SysOk [] (Sys.new recalc) where
  db := {
    mem := by simp [Sys.new, DB.new]
    nodup := by simp [Sys.new, DB.new]
    wf := by simp [Sys.new, DB.new]
    nd := by simp [Sys.new, DB.new]
    ent := by simp [Sys.new, DB.new]
    binInv := by simp [Sys.new, DB.new]
    binSym := by simp [Sys.new, DB.new]
    binAll := by simp [Sys.new, DB.new]
    empt := by simp [Sys.new, DB.new]
    emptAll := by simp [Sys.new, DB.new]
    log := by simp [Sys.new, DB.new]
    hist := by simp [Sys.new, DB.new]
    dels := by intro pre d post he; simp [Sys.new, DB.new] at he
    short := by simp [Sys.new, DB.new] }
  ve := ⟨by simp [Sys.new, VE.empty], by simp [Sys.new, VE.empty], by simp [Sys.new, VE.empty]⟩
  nv := rfl

theorem SysOk.assume {sys : Sys} (h : SysOk F sys) (as : List Lit) :
    SysOk F { sys with sol := { sys.sol with trail := sys.sol.trail.setAssumptions as } } :=
  ⟨h.db, h.ve, h.nv⟩

end Candy
