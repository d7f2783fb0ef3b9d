import Verif.Proofs.Database
import Verif.Model.Search

/-! Invariant of `search` and its consequences. -/

namespace Candy

variable {F : CNF} {nV next : Nat} {bin : Lit → List Watcher} {store : Nat → Cls} {T : Trail}
variable {watch : Lit → List Watcher} {A : Nat → Prop} {ex : Nat → Lit → Prop}

/-! ### analyzeFinal -/

theorem stampLits_iff (T : Trail) (ls : List Lit) (s : Nat → Bool) (v : Nat) :
    (ls.foldl (fun s l => if T.level l.var > 0 then upd s l.var true else s) s) v = true ↔
      s v = true ∨ ∃ l ∈ ls, l.var = v ∧ T.level v > 0 := by
  induction ls generalizing s with
  | nil => simp
  | cons a ls ih =>
    rw [List.foldl_cons, ih]
    by_cases h : T.level a.var > 0
    · rw [if_pos h]
      by_cases hv : v = a.var
      · subst hv; simp [h]
      · rw [upd_ne _ _ hv]; simp [Ne.symm hv]
    · rw [if_neg h]
      constructor
      · rintro (h1 | ⟨l, hl, h1⟩)
        · exact Or.inl h1
        · exact Or.inr ⟨l, by simp [hl], h1⟩
      · rintro (h1 | ⟨l, hl, rfl, h2⟩)
        · exact Or.inl h1
        · rcases List.mem_cons.1 hl with rfl | hl
          · exact (h h2).elim
          · exact Or.inr ⟨l, hl, rfl, h2⟩

/-- The loop of `analyzeFinal`: `R` is the unprocessed part of the stack above level 0, newest
literal first. -/
theorem final_fold (h : Core F nV next bin store T) :
    ∀ (R base done : List Lit) (stamp : Nat → Bool) (out : List Lit),
      T.stack = base ++ R.reverse ++ done →
      (∀ q ∈ base, T.level q.var = 0) → (∀ q ∈ R, 0 < T.level q.var) →
      (∀ x, Sat x F → (∃ l ∈ out, l.holds x) ∨ ∃ q ∈ R, stamp q.var = true ∧ ¬ q.holds x) →
      Entails F (R.foldl (finalStep store T) (stamp, out)).2 ∧
      (∀ l ∈ (R.foldl (finalStep store T) (stamp, out)).2,
        l ∈ out ∨ (l.neg ∈ T.stack ∧ T.reason l.var = none ∧ 0 < T.level l.var))
  | [], base, done, stamp, out, _, _, _, hE => by
    refine ⟨?_, fun l hl => Or.inl hl⟩
    intro x hx
    rcases hE x hx with h1 | ⟨q, hq, _⟩
    · exact h1
    · simp at hq
  | q :: R, base, done, stamp, out, hs, hb, hR, hE => by
    rw [List.foldl_cons]
    have hs' : T.stack = base ++ R.reverse ++ (q :: done) := by rw [hs]; simp
    have hsq : T.stack = (base ++ R.reverse) ++ q :: done := hs'
    have hqm : q ∈ T.stack := by rw [hsq]; simp
    have hRm : ∀ m ∈ R, m ∈ T.stack ∧ m.var ≠ q.var := by
      intro m hm
      have hms : m ∈ T.stack := by rw [hsq]; simp [hm]
      refine ⟨hms, fun hv => ?_⟩
      have := h.tinv.varInj hms hqm hv
      subst this
      have hnd := h.tinv.nodup
      rw [hsq, List.nodup_append] at hnd
      exact hnd.2.2 m (by simp [hm]) m (by simp) rfl
    unfold finalStep
    simp only
    by_cases hst : stamp q.var = true
    · rw [if_pos hst]
      cases hr : T.reason q.var with
      | none =>
        simp only
        obtain ⟨e1, e2⟩ := final_fold h R base (q :: done) (upd stamp q.var false) (out ++ [q.neg])
          hs' hb (fun m hm => hR m (by simp [hm])) (by
            intro x hx
            rcases hE x hx with ⟨l, hl, hh⟩ | ⟨m, hm, h1, h2⟩
            · exact Or.inl ⟨l, by simp [hl], hh⟩
            · rcases List.mem_cons.1 hm with rfl | hm
              · exact Or.inl ⟨m.neg, by simp, Lit.holds_neg.2 h2⟩
              · exact Or.inr ⟨m, hm, by rw [upd_ne _ _ (hRm m hm).2]; exact h1, h2⟩)
        refine ⟨e1, fun l hl => ?_⟩
        rcases e2 l hl with h1 | h1
        · simp only [List.mem_append, List.mem_singleton] at h1
          rcases h1 with h1 | rfl
          · exact Or.inl h1
          · exact Or.inr ⟨by simpa using hqm, by simpa using hr, by simpa using hR q (by simp)⟩
        · exact Or.inr h1
      | some c =>
        simp only
        obtain ⟨r1, r2, r3⟩ := h.rsome _ q _ c hsq hr
        exact final_fold h R base (q :: done) _ out
          hs' hb (fun m hm => hR m (by simp [hm])) (by
            intro x hx
            rcases hE x hx with h1 | ⟨m, hm, h1, h2⟩
            · exact Or.inl h1
            · rcases List.mem_cons.1 hm with rfl | hm
              · obtain ⟨k, hk, hkh⟩ := h.ent c r1 x hx
                have hkm : k ≠ m := by rintro rfl; exact h2 hkh
                have hkn := r3 k hk hkm
                rw [List.mem_append] at hkn
                have hkf : ¬ k.neg.holds x := by rw [Lit.holds_neg]; simpa using hkh
                rcases hkn with hkn | hkn
                · have := h.level0 (l := k.neg) (by rw [hsq]; simp [hkn]) (hb _ hkn)
                  rw [Entails.unit] at this
                  exact (hkf (this x hx)).elim
                · have hkR := List.mem_reverse.1 hkn
                  refine Or.inr ⟨k.neg, hkR, ?_, hkf⟩
                  rw [upd_ne _ _ (hRm _ hkR).2, stampLits_iff]
                  exact Or.inr ⟨k, hk, rfl, hR _ (by simp [hkR])⟩
              · refine Or.inr ⟨m, hm, ?_, h2⟩
                rw [upd_ne _ _ (hRm m hm).2, stampLits_iff]
                exact Or.inl h1)
    · rw [if_neg hst]
      exact final_fold h R base (q :: done) stamp out
        hs' hb (fun m hm => hR m (by simp [hm])) (by
          intro x hx
          rcases hE x hx with h1 | ⟨m, hm, h1, h2⟩
          · exact Or.inl h1
          · rcases List.mem_cons.1 hm with rfl | hm
            · exact (hst h1).elim
            · exact Or.inr ⟨m, hm, h1, h2⟩)

/-- `analyzeFinal p` for a true literal `p`: an entailed clause consisting of `p` and negated
decisions. -/
theorem analyzeFinal_spec (h : Core F nV next bin store T) {p : Lit} (hp : p ∈ T.stack) :
    Entails F (analyzeFinal store T p) ∧ p ∈ analyzeFinal store T p ∧
    ∀ l ∈ analyzeFinal store T p,
      l = p ∨ (l.neg ∈ T.stack ∧ T.reason l.var = none ∧ 0 < T.level l.var) := by
  have hpmem : ∀ (R : List Lit) (s : Nat → Bool) (out : List Lit), p ∈ out →
      p ∈ (R.foldl (finalStep store T) (s, out)).2 := by
    intro R
    induction R with
    | nil => intro s out h; exact h
    | cons q R ih =>
      intro s out h
      rw [List.foldl_cons]
      unfold finalStep
      simp only
      split
      · split
        · exact ih _ _ (by simp [h])
        · exact ih _ _ h
      · exact ih _ _ h
  unfold analyzeFinal
  cases hl : T.lim with
  | nil =>
    simp only
    refine ⟨h.level0 hp ?_, by simp, by simp⟩
    have := h.tinv.level_le hp
    simp [Trail.decisionLevel, hl] at this
    exact this
  | cons k ks =>
    simp only
    have hk : T.lim[0]? = some k := by simp [hl]
    have hkl : k ≤ T.stack.length := h.tinv.limLe k (by simp [hl])
    have hsplit : T.stack = T.stack.take k ++ (T.stack.drop k).reverse.reverse ++ [] := by simp
    have hbase : ∀ q ∈ T.stack.take k, T.level q.var = 0 := by
      intro q hq
      have := (Trail.backtrack_mem h.tinv hk (l := q)).1 (by rw [Trail.backtrack_stack hk]; exact hq)
      omega
    have hR : ∀ q ∈ (T.stack.drop k).reverse, 0 < T.level q.var := by
      intro q hq
      have hq' := List.mem_reverse.1 hq
      by_cases h0 : T.level q.var = 0
      · exfalso
        have := (Trail.backtrack_mem h.tinv hk (l := q)).2 ⟨List.mem_of_mem_drop hq', by omega⟩
        rw [Trail.backtrack_stack hk] at this
        have hnd := h.tinv.nodup
        rw [← List.take_append_drop k T.stack, List.nodup_append] at hnd
        exact hnd.2.2 q this q hq' rfl
      · omega
    obtain ⟨e1, e2⟩ := final_fold h (T.stack.drop k).reverse (T.stack.take k) []
      (upd (fun _ => false) p.var true) [p] hsplit hbase hR (by
        intro x hx
        by_cases hh : p.holds x
        · exact Or.inl ⟨p, by simp, hh⟩
        · right
          rw [← List.take_append_drop k T.stack, List.mem_append] at hp
          rcases hp with hp | hp
          · have := h.level0 (l := p) (List.mem_of_mem_take hp) (hbase p hp)
            rw [Entails.unit] at this
            exact (hh (this x hx)).elim
          · exact ⟨p, by simpa using hp, by simp, hh⟩)
    refine ⟨e1, hpmem _ _ _ (by simp), fun l hl => ?_⟩
    rcases e2 l hl with h1 | h1
    · left; simpa using h1
    · exact Or.inr h1

/-! ### The invariant -/

/-- Invariant of the search loop. `A` is the set of clauses for which propagation is complete. -/
structure SInv (F : CNF) (A : Nat → Prop) (s : Solver) : Prop where
  db : DBOk F s.db
  core : Core F s.db.nVars s.db.next s.db.bin s.db.store s.trail
  watch : WatchInv s.db.next s.db.store s.watch
  limq : LimQ s.trail
  cinv : CInv A s.db.store s.watch s.db.bin s.trail (fun _ _ => False)
  alt : ∀ c, A c → c < s.db.next
  units : ∀ c, A c → ∀ l, (s.db.store c).lits = [l] → l ∈ s.trail.stack ∧ s.trail.level l.var = 0
  nonempty : ∀ c, A c → (s.db.store c).lits ≠ []
  asmBound : ∀ l ∈ s.trail.assumptions, l.var < s.db.nVars
  asm : ∀ p ∈ s.trail.stack, s.trail.reason p.var = none → 0 < s.trail.level p.var →
    s.trail.level p.var ≤ s.trail.assumptions.length →
    s.trail.assumptions[s.trail.level p.var - 1]? = some p
  asmTrue : ∀ i p, s.trail.assumptions[i]? = some p → i < s.trail.decisionLevel →
    p ∈ s.trail.stack ∧ s.trail.level p.var ≤ i + 1

theorem Trail.backtrack_subset (lvl : Nat) {l : Lit} (h : l ∈ (T.backtrack lvl).stack) :
    l ∈ T.stack := by
  cases hk : T.lim[lvl]? with
  | none => rwa [Trail.backtrack_none hk] at h
  | some k =>
    rw [Trail.backtrack_stack hk] at h
    exact List.mem_of_mem_take h

theorem SatW.backtrack (ht : T.Inv) (hq : LimQ T) {ls : List Lit} {w : Lit} {lvl k : Nat}
    (hk : T.lim[lvl]? = some k) (h : SatW T ls w) : SatW (T.backtrack lvl) ls w := by
  intro hw
  have hkq : k ≤ T.qhead := hq k (List.mem_of_getElem? hk)
  have hwm := (Trail.backtrack_mem ht hk).1 (List.mem_of_mem_take hw)
  have hw2 : w.neg ∈ T.stack.take T.qhead := by
    have := List.mem_of_mem_take hw
    rw [Trail.backtrack_stack hk] at this
    exact List.take_subset_take_left _ hkq this
  obtain ⟨l, hl, hs, hle⟩ := h hw2
  refine ⟨l, hl, (Trail.backtrack_mem ht hk).2 ⟨hs, ?_⟩, by rw [Trail.backtrack_level]; exact hle⟩
  have := hwm.2
  simp only [Lit.var_neg] at this
  omega

theorem reestimate_lits (db : DB) (b : Bool) (T : Trail) (inv : List Nat) (c : Nat) :
    ((db.reestimate b T inv).store c).lits = (db.store c).lits := by
  unfold DB.reestimate
  split
  · simp only
    generalize db.store = st
    induction inv generalizing st with
    | nil => rfl
    | cons d inv ih =>
      rw [List.foldl_cons, ih]
      split
      · simp only [upd]; split
        · subst_vars; rfl
        · rfl
      · rfl
  · rfl

theorem reestimate_fields (db : DB) (b : Bool) (T : Trail) (inv : List Nat) :
    (db.reestimate b T inv).next = db.next ∧ (db.reestimate b T inv).nVars = db.nVars ∧
    (db.reestimate b T inv).bin = db.bin ∧ (db.reestimate b T inv).clauses = db.clauses ∧
    (db.reestimate b T inv).hasEmpty = db.hasEmpty ∧ (db.reestimate b T inv).log = db.log := by
  unfold DB.reestimate; split <;> simp

/-- `computeLBD` counts the distinct levels. -/
theorem computeLBD_aux (T : Trail) (ls : List Lit) (seen : List Nat) (n : Nat) (hn : seen.Nodup) :
    ∃ seen', (ls.foldl (fun (acc : List Nat × Nat) l =>
        let lv := T.level l.var
        if acc.1.contains lv then acc else (lv :: acc.1, acc.2 + 1)) (seen, n)) =
        (seen' ++ seen, n + seen'.length) ∧ (seen' ++ seen).Nodup ∧
      ∀ v, v ∈ seen' ++ seen ↔ v ∈ seen ∨ v ∈ ls.map (fun l => T.level l.var) := by
  induction ls generalizing seen n with
  | nil => exact ⟨[], by simp [hn]⟩
  | cons l ls ih =>
    rw [List.foldl_cons]
    simp only
    by_cases h : seen.contains (T.level l.var) = true
    · rw [if_pos h]
      obtain ⟨s', h1, h2, h3⟩ := ih seen n hn
      refine ⟨s', h1, h2, fun v => ?_⟩
      rw [h3]
      simp only [List.contains_iff_mem] at h
      simp only [List.map_cons, List.mem_cons]
      constructor
      · rintro (h4 | h4) <;> simp [h4]
      · rintro (h4 | rfl | h4)
        · exact Or.inl h4
        · exact Or.inl h
        · exact Or.inr h4
    · rw [if_neg h]
      simp only [List.contains_iff_mem] at h
      obtain ⟨s', h1, h2, h3⟩ := ih (T.level l.var :: seen) (n + 1) (by simp [h, hn])
      refine ⟨s' ++ [T.level l.var], ?_, by simpa using h2, fun v => ?_⟩
      · rw [h1]; simp; omega
      · have := h3 v
        simp only [List.append_assoc, List.singleton_append, List.map_cons, List.mem_cons] at this ⊢
        rw [this]
        constructor
        · rintro ((h4 | h4) | h4) <;> simp [h4]
        · rintro (h4 | h4 | h4) <;> simp [h4]

theorem computeLBD_spec (T : Trail) (ls : List Lit) :
    ∃ levels : List Nat, levels.Nodup ∧ (∀ v, v ∈ levels ↔ ∃ l ∈ ls, T.level l.var = v) ∧
      T.computeLBD ls = levels.length := by
  obtain ⟨s', h1, h2, h3⟩ := computeLBD_aux T ls [] 0 (by simp)
  refine ⟨s', by simpa using h2, fun v => ?_, ?_⟩
  · have := h3 v
    simp only [List.append_nil, List.not_mem_nil, false_or, List.mem_map] at this
    exact this
  · unfold Trail.computeLBD; rw [h1]; simp

theorem computeLBD_le (T : Trail) (ls : List Lit) : T.computeLBD ls ≤ ls.length := by
  obtain ⟨lv, h1, h2, h3⟩ := computeLBD_spec T ls
  rw [h3]
  have := h1.length_le_of_subset (l₂ := ls.map (fun l => T.level l.var)) (by
    intro v hv; simpa using (h2 v).1 hv)
  simpa using this

theorem computeLBD_pos (T : Trail) {ls : List Lit} (h : ls ≠ []) : 0 < T.computeLBD ls := by
  obtain ⟨lv, h1, h2, h3⟩ := computeLBD_spec T ls
  rw [h3]
  obtain ⟨l, hl⟩ := List.exists_mem_of_ne_nil _ h
  exact List.length_pos_of_mem ((h2 _).2 ⟨l, hl, rfl⟩)

/-- Re-estimation never turns a short clause that is not persistent into a persistent one, and
keeps persistent clauses. -/
theorem reestimate_weight0 (db : DB) (b : Bool) (T : Trail) (inv : List Nat) (c : Nat) :
    ((db.store c).weight = 0 → ((db.reestimate b T inv).store c).weight = 0) ∧
    ((db.store c).lits ≠ [] → (db.store c).lits.length < 65536 →
      ((db.reestimate b T inv).store c).weight = 0 → (db.store c).weight = 0) := by
  unfold DB.reestimate
  split
  · simp only
    generalize db.store = st
    induction inv generalizing st with
    | nil => exact ⟨id, fun _ _ => id⟩
    | cons d inv ih =>
      rw [List.foldl_cons]
      split
      · rename_i hl
        have hx := ih (upd st d { st d with weight := T.computeLBD (st d).lits % 65536 })
        by_cases hcd : c = d
        · subst hcd
          simp only [upd_same] at hx
          constructor
          · intro h0; simp [Cls.isLearnt, h0] at hl
          · intro hne hlen h0
            have h1 := hx.2 hne hlen h0
            have := computeLBD_pos T hne
            have := computeLBD_le T (st c).lits
            rw [Nat.mod_eq_of_lt (by omega)] at h1
            omega
        · rw [upd_ne _ _ hcd] at hx
          exact hx
      · exact ih st
  · exact ⟨id, fun _ _ => id⟩

theorem reestimate_short (db : DB) (b : Bool) (T : Trail) (inv : List Nat) (c : Nat)
    (hl : (db.store c).lits.length < 3)
    (h : (db.store c).weight ≤ 2 ∨ (db.store c).weight = Cls.deletedWeight) :
    ((db.reestimate b T inv).store c).weight ≤ 2 ∨
      ((db.reestimate b T inv).store c).weight = Cls.deletedWeight := by
  unfold DB.reestimate
  split
  · simp only
    generalize db.store = st at hl h
    induction inv generalizing st with
    | nil => exact h
    | cons d inv ih =>
      rw [List.foldl_cons]
      split
      · by_cases hcd : c = d
        · subst hcd
          refine ih _ (by rw [upd_same]; exact hl) (Or.inl ?_)
          rw [upd_same]
          simp only
          have := computeLBD_le T (st c).lits
          have := Nat.mod_le (T.computeLBD (st c).lits) 65536
          omega
        · exact ih _ (by rw [upd_ne _ _ hcd]; exact hl) (by rw [upd_ne _ _ hcd]; exact h)
      · exact ih st hl h
  · exact h

theorem DBOk.reestimate {db : DB} (h : DBOk F db) (b : Bool) (T : Trail) (inv : List Nat) :
    DBOk F (db.reestimate b T inv) := by
  obtain ⟨e1, e2, e3, e4, e5, e6⟩ := reestimate_fields db b T inv
  refine ⟨?_, ?_, ?_, ?_, ?_, ?_, ?_, ?_, ?_, ?_, ?_, ?_, ?_, ?_⟩
  · rw [e4, e1]; exact h.mem
  · rw [e4]; exact h.nodup
  · rw [e1, e2]; intro c hc; rw [reestimate_lits]; exact h.wf c hc
  · rw [e1]; intro c hc; rw [reestimate_lits]; exact h.nd c hc
  · rw [e1]; intro c hc; rw [reestimate_lits]; exact h.ent c hc
  · rw [e1, e3]; intro p w hw; rw [reestimate_lits]; exact h.binInv p w hw
  · rw [e4, e3]
    intro c hc hw x y hl
    rw [reestimate_lits] at hl
    exact h.binAll c hc ((reestimate_weight0 db b T inv c).2 (by simp [hl]) (by simp [hl]) hw) x y hl
  · rw [e5]; exact h.empt
  · rw [e4, e5]; intro c hc; rw [reestimate_lits]; exact h.emptAll c hc
  · rw [e6]; exact h.log
  · rw [e1, e6]; intro c hc; rw [reestimate_lits]; exact h.hist c hc
  · rw [e6]; exact h.dels
  · rw [e1]; intro c hc; rw [reestimate_lits]; intro hl
    exact reestimate_short db b T inv c hl (h.short c hc hl)
  · rw [e3]; exact h.binSym

/-- A `Core` statement follows from the database invariant and the trail part. -/
theorem Core.ofDB {db : DB} (hd : DBOk F db) {nV next : Nat} {bin : Lit → List Watcher}
    {store : Nat → Cls} (h : Core F nV next bin store T) (hn : next ≤ db.next) (hv : nV = db.nVars)
    (hst : ∀ c < next, (db.store c).lits = (store c).lits) :
    Core F db.nVars db.next db.bin db.store T :=
  h.toDB hn hv.symm hst hd.wf hd.nd hd.ent hd.binInv

/-- The conflict branch re-establishes the invariant, with the learnt clause added. -/
theorem learnStep_spec {s : Solver} {confl : Nat}
    (hdb : DBOk F s.db)
    (hcore : Core F s.db.nVars s.db.next s.db.bin s.db.store s.trail)
    (hwatch : WatchInv s.db.next s.db.store s.watch)
    (hlimq : LimQ s.trail)
    (hcinv : CInv A s.db.store s.watch s.db.bin s.trail
      (fun _ w => s.trail.level w.var = s.trail.decisionLevel))
    (halt : ∀ c, A c → c < s.db.next)
    (hunits : ∀ c, A c → ∀ l, (s.db.store c).lits = [l] →
      l ∈ s.trail.stack ∧ s.trail.level l.var = 0)
    (hne : ∀ c, A c → (s.db.store c).lits ≠ [])
    (hab : ∀ l ∈ s.trail.assumptions, l.var < s.db.nVars)
    (hasm : ∀ p ∈ s.trail.stack, s.trail.reason p.var = none → 0 < s.trail.level p.var →
      s.trail.level p.var ≤ s.trail.assumptions.length →
      s.trail.assumptions[s.trail.level p.var - 1]? = some p)
    (hasmT : ∀ i p, s.trail.assumptions[i]? = some p → i < s.trail.decisionLevel →
      p ∈ s.trail.stack ∧ s.trail.level p.var ≤ i + 1)
    (hdl : 0 < s.trail.decisionLevel) (hc : Conflict s.db.next s.db.store s.trail confl) :
    ∃ s' r, handleConflict s.db.store s.db.bin s.trail confl = some r ∧
      LearntOK F s.trail r.learnt r.btlevel ∧
      learnStep s confl = some s' ∧ SInv F (fun c => A c ∨ c = s.db.next) s' ∧
      s'.db.next = s.db.next + 1 ∧ (∀ c < s.db.next, (s'.db.store c).lits = (s.db.store c).lits) ∧
      (s'.db.store s.db.next).lits = r.learnt ∧
      (∀ c < s.db.next, (s.db.store c).weight = 0 → (s'.db.store c).weight = 0) ∧
      (∀ c < s.db.next, (s.db.store c).lits ≠ [] → (s.db.store c).lits.length < 3 →
        (s'.db.store c).weight = 0 → (s.db.store c).weight = 0) ∧
      s'.db.nVars = s.db.nVars ∧ s'.conflict = s.conflict ∧ s'.recalc = s.recalc ∧
      s'.db.clauses = s.db.clauses ++ [s.db.next] ∧
      s'.db.hasEmpty = s.db.hasEmpty ∧ s'.db.log = s.db.log ++ [.add r.learnt] ∧
      s'.sent = s.sent ++ [r.learnt] ∧
      (∃ first, r.learnt.head? = some first ∧
        s'.trail = (s.trail.backtrack r.btlevel).push first (some s.db.next) ∧
        (s.trail.backtrack r.btlevel).value first = none) := by
  obtain ⟨r, hr, hl⟩ := handleConflict_spec hcore hdl hc
  obtain ⟨first, rest, hls, hf1, hf2, hrest, hb0, hbs⟩ := hl.shape
  obtain ⟨k, hk⟩ : ∃ k, s.trail.lim[r.btlevel]? = some k := by
    have := hl.bt
    unfold Trail.decisionLevel at this
    exact ⟨_, List.getElem?_eq_getElem this⟩
  have hwf : ∀ l ∈ r.learnt, l.var < s.db.nVars := by
    intro l hlm
    rw [← hcore.nv]
    rw [hls, List.mem_cons] at hlm
    rcases hlm with rfl | hlm
    · exact hcore.tinv.bound l.neg hf1
    · exact hcore.tinv.bound l.neg (hrest l hlm).1
  have hlnd := hl.nodup
  obtain ⟨e1, e2, e3, e4, e5, e6⟩ := reestimate_fields s.db s.recalc s.trail r.involved
  -- the database after learning
  have hdb1 := hdb.reestimate s.recalc s.trail r.involved
  have hdb2 : DBOk F ((s.db.reestimate s.recalc s.trail r.involved).createClause r.learnt r.lbd).1 :=
    hdb1.createClause (by rw [e2]; exact hwf) hl.nodup hl.ent
  have hst : ∀ c < s.db.next,
      (((s.db.reestimate s.recalc s.trail r.involved).createClause r.learnt r.lbd).1.store c).lits =
        (s.db.store c).lits := by
    intro c hcn
    rw [createClause_store, e1, upd_ne _ _ (by omega), reestimate_lits]
  have hstn : (((s.db.reestimate s.recalc s.trail r.involved).createClause r.learnt r.lbd).1.store
      s.db.next).lits = r.learnt := by
    rw [createClause_store, e1, upd_same]
  have hwt : ∀ c < s.db.next, (s.db.store c).weight = 0 →
      (((s.db.reestimate s.recalc s.trail r.involved).createClause r.learnt r.lbd).1.store c).weight =
        0 := by
    intro c hcn hw
    rw [createClause_store, e1, upd_ne _ _ (by omega)]
    exact (reestimate_weight0 s.db s.recalc s.trail r.involved c).1 hw
  have hwr : ∀ c < s.db.next, (s.db.store c).lits ≠ [] → (s.db.store c).lits.length < 3 →
      (((s.db.reestimate s.recalc s.trail r.involved).createClause r.learnt r.lbd).1.store c).weight =
        0 → (s.db.store c).weight = 0 := by
    intro c hcn h1 h2 hw
    rw [createClause_store, e1, upd_ne _ _ (by omega)] at hw
    exact (reestimate_weight0 s.db s.recalc s.trail r.involved c).2 h1 (by omega) hw
  have hbinmono : ∀ p w, w ∈ s.db.bin p →
      w ∈ ((s.db.reestimate s.recalc s.trail r.involved).createClause r.learnt r.lbd).1.bin p := by
    intro p w hw
    exact createClause_bin_mono (by rw [e3]; exact hw)
  -- trail after backtracking
  have hcoreB := hcore.backtrack r.btlevel
  have hfv : (s.trail.backtrack r.btlevel).value first = none := by
    rw [hcoreB.tinv.valNone]
    constructor
    · intro h1
      have := ((Trail.backtrack_mem hcore.tinv hk).1 h1).1
      exact hcore.tinv.notBoth this hf1
    · intro h1
      have := ((Trail.backtrack_mem hcore.tinv hk).1 h1).2
      have := hl.bt
      simp only [Lit.var_neg] at *
      omega
  have hrestB : ∀ l ∈ rest, l.neg ∈ (s.trail.backtrack r.btlevel).stack := by
    intro l hlr
    exact (Trail.backtrack_mem hcore.tinv hk).2 ⟨(hrest l hlr).1, by simpa using (hrest l hlr).2.2⟩
  generalize hdbe : (s.db.reestimate s.recalc s.trail r.involved).createClause r.learnt r.lbd = dbp
    at hdb2 hst hstn hbinmono hwt hwr
  have hid : dbp.2 = s.db.next := by rw [← hdbe, createClause_id, e1]
  have hnx : dbp.1.next = s.db.next + 1 := by rw [← hdbe, createClause_next, e1]
  have hnv : dbp.1.nVars = s.db.nVars := by rw [← hdbe, createClause_nVars, e2]
  have hcl : dbp.1.clauses = s.db.clauses ++ [s.db.next] := by
    rw [← hdbe, createClause_clauses, e4, e1]
  have hlog : dbp.1.log = s.db.log ++ [.add r.learnt] := by
    rw [← hdbe, createClause_log, e6]; rfl
  have hemp : dbp.1.hasEmpty = s.db.hasEmpty := by
    rw [← hdbe, createClause_hasEmpty, e5, hls]; simp
  have hbin2 : ∀ x y, r.learnt = [x, y] →
      (⟨s.db.next, y⟩ : Watcher) ∈ dbp.1.bin x.neg ∧ (⟨s.db.next, x⟩ : Watcher) ∈ dbp.1.bin y.neg := by
    intro x y hxy
    refine hdb2.binAll s.db.next (by rw [hcl]; simp) ?_ x y (by rw [hstn, hxy])
    rw [← hdbe, createClause_store, e1, upd_same, hxy]; simp
  -- Core after learning
  have hcore3 : Core F dbp.1.nVars dbp.1.next dbp.1.bin dbp.1.store (s.trail.backtrack r.btlevel) :=
    hcoreB.ofDB hdb2 (by omega) hnv.symm hst
  have hcore4 : Core F dbp.1.nVars dbp.1.next dbp.1.bin dbp.1.store
      ((s.trail.backtrack r.btlevel).push first (some s.db.next)) := by
    refine hcore3.push hfv (by omega) (by rw [hstn, hls]; simp) ?_
    intro q hq hqf
    rw [hstn, hls, List.mem_cons] at hq
    rw [hcoreB.tinv.valFalse]
    exact hrestB q (hq.resolve_left hqf)
  -- the watch lists
  obtain ⟨watch', hw1, hw2, hw3, hw4⟩ : ∃ watch',
      (if r.learnt.length > 2 then attachClause dbp.1.store s.watch dbp.2 else some s.watch) =
        some watch' ∧ WatchInv dbp.1.next dbp.1.store watch' ∧
      (∀ p w, w ∈ s.watch p → w ∈ watch' p) ∧
      (∀ x y rr, r.learnt = x :: y :: rr → rr ≠ [] →
        (∃ w ∈ watch' x.neg, w.cref = s.db.next) ∧ (∃ w ∈ watch' y.neg, w.cref = s.db.next)) := by
    have hold : WatchInv dbp.1.next dbp.1.store s.watch := hwatch.congr (by omega) hst
    by_cases hlen : r.learnt.length > 2
    · rw [if_pos hlen, hid]
      match hrl : r.learnt, hlen with
      | x :: y :: z :: rr, _ =>
        have hxy : x ≠ y := by
          rw [hrl] at hlnd; rintro rfl; simp at hlnd
        refine ⟨attach2 s.watch s.db.next x y, attachClause_eq (by rw [hstn, hrl]), ?_, ?_, ?_⟩
        · refine hold.attach (by rw [hstn, hrl]) (by simp) hxy (by omega) ?_
          intro p hp
          obtain ⟨w, hwm, hwc⟩ := List.mem_map.1 hp
          have := (hwatch.wmem p w hwm).1
          omega
        · intro p w hw
          exact addBin_mono hw
        · intro x' y' rr' he _
          simp only [List.cons.injEq] at he
          obtain ⟨rfl, rfl, _⟩ := he
          refine ⟨⟨⟨s.db.next, y⟩, ?_, rfl⟩, ⟨⟨s.db.next, x⟩, ?_, rfl⟩⟩
          · rw [attach2, mem_addBin hxy]; simp
          · rw [attach2, mem_addBin hxy]; simp
    · rw [if_neg hlen]
      refine ⟨s.watch, rfl, hold, fun p w hw => hw, ?_⟩
      intro x y rr he hrr
      rw [he] at hlen
      cases rr with
      | nil => exact (hrr rfl).elim
      | cons => simp at hlen
  refine ⟨{ s with db := dbp.1, watch := watch', sent := s.sent ++ [r.learnt], trail := ((s.trail.backtrack r.btlevel).push first (some s.db.next)) }, r, hr, hl, ?_, ?_, hnx, hst,
    hstn, hwt, hwr, hnv, rfl, rfl, hcl, hemp, hlog, rfl, first, by simp [hls], rfl, hfv⟩
  · unfold learnStep
    rw [hr]
    simp only
    rw [hdbe]
    rw [hw1]
    simp only [hls]
    rw [hid, Trail.propagate_eq_push _ _ _ hfv]
  · -- the invariant
    have hpl : ∀ l ∈ (s.trail.backtrack r.btlevel).stack,
        ((s.trail.backtrack r.btlevel).push first (some s.db.next)).level l.var = s.trail.level l.var := by
      intro l hlm
      simp only [Trail.push, upd_ne _ _ (ne_var_of_mem hcoreB.tinv hfv hlm), Trail.backtrack_level]
    have hpr : ∀ l ∈ (s.trail.backtrack r.btlevel).stack,
        ((s.trail.backtrack r.btlevel).push first (some s.db.next)).reason l.var = s.trail.reason l.var := by
      intro l hlm
      simp only [Trail.push, upd_ne _ _ (ne_var_of_mem hcoreB.tinv hfv hlm), Trail.backtrack_reason]
    have hdlB : (s.trail.backtrack r.btlevel).decisionLevel = r.btlevel := by
      unfold Trail.decisionLevel
      rw [Trail.backtrack_lim hk]
      have := hl.bt
      unfold Trail.decisionLevel at this
      simp; omega
    exact {
      db := hdb2
      core := hcore4
      watch := hw2
      limq := by
        intro j hj
        simp only [Trail.push, Trail.setValue] at hj ⊢
        rw [Trail.backtrack_lim hk] at hj
        rw [Trail.backtrack_qhead hk]
        have hb : r.btlevel ≠ 0 := by
          intro h0; rw [h0] at hj; simp at hj
        rw [if_neg hb]
        obtain ⟨i, hi, rfl⟩ := List.getElem_of_mem hj
        simp at hi
        rw [List.getElem_take]
        obtain ⟨hlt, hke⟩ := List.getElem?_eq_some_iff.1 hk
        rw [← hke]
        exact List.pairwise_iff_getElem.1 hcore.tinv.limSorted i r.btlevel (by omega) hlt (by omega)
      cinv := by
        refine CInv.union ?_ ?_
        · refine CInv.push hcoreB.tinv hfv ?_
          refine CInv.congr (store := s.db.store) (watch := s.watch) (bin := s.db.bin) ?_
            (fun c hA => hst c (halt c hA)) hw3 hbinmono
          exact {
            w1 := hcinv.w1
            b1 := hcinv.b1
            w4 := fun c hA x y rr hlc w hw => by
              right
              rcases hcinv.w4 c hA x y rr hlc w hw with h1 | h1
              · intro hwm
                have := ((Trail.backtrack_mem hcore.tinv hk).1 (List.mem_of_mem_take hwm)).2
                have := hl.bt
                simp only [Lit.var_neg] at *
                omega
              · exact h1.backtrack hcore.tinv hlimq hk }
        · exact {
            w1 := fun c hA x y rr hlc hrr => by
              subst hA
              rw [hstn] at hlc
              exact hw4 x y rr hlc hrr
            b1 := fun c hA x y hlc => by
              subst hA
              rw [hstn] at hlc
              exact hbin2 x y hlc
            w4 := fun c hA x y rr hlc w hw => by
              subst hA
              right
              intro hwm
              rw [hstn] at hlc ⊢
              have hwm' := List.mem_of_mem_take hwm
              refine ⟨first, by rw [hls]; simp, by simp [Trail.push, Trail.setValue], ?_⟩
              rw [hls] at hlc
              simp only [List.cons.injEq] at hlc
              obtain ⟨rfl, hrest'⟩ := hlc
              rcases hw with rfl | rfl
              · exact Nat.le_refl _
              · have hyb := (hbs w rr hrest').1
                have hymem : w ∈ rest := by rw [hrest']; simp
                have e : ((s.trail.backtrack r.btlevel).push first (some s.db.next)).level w.var =
                    s.trail.level w.var := hpl w.neg (hrestB w hymem)
                show ((s.trail.backtrack r.btlevel).push first (some s.db.next)).level first.var ≤
                  ((s.trail.backtrack r.btlevel).push first (some s.db.next)).level w.var
                rw [e]
                simp only [Trail.push, upd_same, hdlB]
                omega }
      alt := by
        rintro c (h1 | rfl)
        · have := halt c h1; simp only; omega
        · simp only; omega
      units := by
        rintro c (h1 | rfl) l hlc
        · rw [hst c (halt c h1)] at hlc
          obtain ⟨u1, u2⟩ := hunits c h1 l hlc
          have : l ∈ (s.trail.backtrack r.btlevel).stack :=
            (Trail.backtrack_mem hcore.tinv hk).2 ⟨u1, by omega⟩
          refine ⟨by simp [Trail.push, Trail.setValue, this], ?_⟩
          rw [hpl l this]; exact u2
        · rw [hstn, hls] at hlc
          simp at hlc
          obtain ⟨rfl, hr0⟩ := hlc
          refine ⟨by simp [Trail.push, Trail.setValue], ?_⟩
          simp only [Trail.push, upd_same, hdlB]
          exact hb0 hr0
      nonempty := by
        rintro c (h1 | rfl)
        · rw [hst c (halt c h1)]; exact hne c h1
        · rw [hstn, hls]; simp
      asmBound := by
        intro l hlm
        simp only [hnv]
        exact hab l (by simpa [Trail.push, Trail.setValue] using hlm)
      asm := by
        intro p hp hpr0 hlev hlen
        simp only [Trail.push, Trail.setValue, List.mem_append, List.mem_singleton] at hp
        rcases hp with hp | rfl
        · rw [hpl p hp] at hlev hlen ⊢
          rw [hpr p hp] at hpr0
          simp only [Trail.push, Trail.setValue, Trail.backtrack_assumptions] at hlen ⊢
          exact hasm p ((Trail.backtrack_mem hcore.tinv hk).1 hp).1 hpr0 hlev hlen
        · simp [Trail.push] at hpr0
      asmTrue := by
        intro i p hp hi
        simp only [Trail.push, Trail.setValue, Trail.backtrack_assumptions] at hp
        have hi' : i < r.btlevel := by rw [← hdlB]; exact hi
        obtain ⟨a1, a2⟩ := hasmT i p hp (by have := hl.bt; omega)
        have : p ∈ (s.trail.backtrack r.btlevel).stack :=
          (Trail.backtrack_mem hcore.tinv hk).2 ⟨a1, by omega⟩
        refine ⟨by simp [Trail.push, Trail.setValue, this], ?_⟩
        rw [hpl p this]; exact a2 }


/-! ### One iteration -/

theorem DBOk.perm {db : DB} (h : DBOk F db) {st : Nat → Cls} (hs : StoreExt db.store st) :
    DBOk F { db with store := st } where
  mem := h.mem
  nodup := h.nodup
  wf c hc l hl := h.wf c hc l ((hs c).1.mem_iff.1 hl)
  nd c hc := ((hs c).1.map _).nodup_iff.2 (h.nd c hc)
  ent c hc := (h.ent c hc).mono fun l hl => (hs c).1.mem_iff.2 hl
  binSym := h.binSym
  binInv p w hw := by
    obtain ⟨a, b⟩ := h.binInv p w hw
    refine ⟨a, ?_⟩
    have hp := (hs w.cref).1
    rcases b with b | b <;> rw [b] at hp
    · exact perm_pair hp
    · exact (perm_pair hp).symm
  binAll c hc hw x y hl := by
    have hw' : (db.store c).weight = 0 := by rw [← (hs c).2]; exact hw
    have hp : (db.store c).lits.Perm [x, y] := by
      have := (hs c).1
      simp only at hl
      rw [hl] at this; exact this.symm
    rcases perm_pair hp with e | e
    · exact h.binAll c hc hw' x y e
    · exact (h.binAll c hc hw' y x e).symm
  empt := h.empt
  emptAll c hc hl := by
    have := (hs c).1
    simp only at hl
    rw [hl] at this
    exact h.emptAll c hc this.symm.eq_nil
  log := h.log
  hist c hc := (h.hist c hc).perm (hs c).1
  dels := h.dels
  short c hc hl := by
    simp only at hl ⊢
    rw [(hs c).2]; exact h.short c hc (by rw [← (hs c).1.length_eq]; exact hl)

/-- What one or more iterations leave unchanged. -/
structure Frame (F : CNF) (s s' : Solver) : Prop where
  nVars : s'.db.nVars = s.db.nVars
  tnVars : s'.trail.nVars = s.trail.nVars
  assumptions : s'.trail.assumptions = s.trail.assumptions
  decision : s'.trail.decision = s.trail.decision
  recalc : s'.recalc = s.recalc
  next : s.db.next ≤ s'.db.next
  perm : ∀ c < s.db.next, (s'.db.store c).lits.Perm (s.db.store c).lits
  weight : ∀ c < s.db.next, (s.db.store c).weight = 0 → (s'.db.store c).weight = 0
  weightRev : ∀ c < s.db.next, (s.db.store c).lits ≠ [] → (s.db.store c).lits.length < 3 →
    (s'.db.store c).weight = 0 → (s.db.store c).weight = 0
  clauses : ∃ ext, s'.db.clauses = s.db.clauses ++ ext ∧ ∀ c ∈ ext, s.db.next ≤ c
  hasEmpty : s'.db.hasEmpty = s.db.hasEmpty
  news : ∃ ext : List Clause, s'.db.log = s.db.log ++ ext.map .add ∧ s'.sent = s.sent ++ ext ∧
    ∀ c ∈ ext, Entails F c

theorem Frame.refl (s : Solver) : Frame F s s where
  nVars := rfl
  tnVars := rfl
  assumptions := rfl
  decision := rfl
  recalc := rfl
  next := Nat.le_refl _
  perm _ _ := List.Perm.refl _
  weight _ _ := id
  weightRev _ _ _ _ := id
  clauses := ⟨[], by simp⟩
  hasEmpty := rfl
  news := ⟨[], by simp⟩

theorem Frame.trans {s s' s'' : Solver} (h : Frame F s s') (h' : Frame F s' s'') :
    Frame F s s'' where
  nVars := h'.nVars.trans h.nVars
  tnVars := h'.tnVars.trans h.tnVars
  assumptions := h'.assumptions.trans h.assumptions
  decision := h'.decision.trans h.decision
  recalc := h'.recalc.trans h.recalc
  next := Nat.le_trans h.next h'.next
  perm c hc := (h'.perm c (Nat.lt_of_lt_of_le hc h.next)).trans (h.perm c hc)
  weight c hc hw := h'.weight c (Nat.lt_of_lt_of_le hc h.next) (h.weight c hc hw)
  weightRev c hc hne hl hw := h.weightRev c hc hne hl
    (h'.weightRev c (Nat.lt_of_lt_of_le hc h.next)
      (fun e => hne (by have := h.perm c hc; rw [e] at this; exact this.symm.eq_nil))
      (by rw [(h.perm c hc).length_eq]; exact hl) hw)
  clauses := by
    obtain ⟨e, h1, h2⟩ := h.clauses
    obtain ⟨e', h1', h2'⟩ := h'.clauses
    refine ⟨e ++ e', by rw [h1', h1]; simp, ?_⟩
    intro c hc
    rcases List.mem_append.1 hc with hc | hc
    · exact h2 c hc
    · exact Nat.le_trans h.next (h2' c hc)
  hasEmpty := h'.hasEmpty.trans h.hasEmpty
  news := by
    obtain ⟨e, h1, h2, h3⟩ := h.news
    obtain ⟨e', h1', h2', h3'⟩ := h'.news
    refine ⟨e ++ e', by rw [h1', h1]; simp, by rw [h2', h2]; simp, ?_⟩
    intro c hc
    rcases List.mem_append.1 hc with hc | hc
    · exact h3 c hc
    · exact h3' c hc

theorem newLevel_core (h : Core F nV next bin store T) :
    Core F nV next bin store T.newDecisionLevel where
  tinv := Trail.newDecisionLevel_inv h.tinv
  nv := h.nv
  wf := h.wf
  nd := h.nd
  ent := h.ent
  rsome := h.rsome
  rnone pre p post hs hr := by
    rcases h.rnone pre p post hs hr with h1 | ⟨h1, h2⟩
    · exact Or.inl h1
    · refine Or.inr ⟨h1, ?_⟩
      simp only [Trail.newDecisionLevel]
      rw [List.getElem?_append_left]
      · exact h2
      · exact (List.getElem?_eq_some_iff.1 h2).1
  binInv := h.binInv

theorem SInv.newLevel {s : Solver} (h : SInv F A s) (hq : s.trail.qhead = s.trail.stack.length)
    (hp : ∀ p, s.trail.assumptions[s.trail.decisionLevel]? = some p → p ∈ s.trail.stack) :
    SInv F A { s with trail := s.trail.newDecisionLevel } where
  db := h.db
  core := newLevel_core h.core
  watch := h.watch
  limq := by
    intro k hk
    simp only [Trail.newDecisionLevel, List.mem_append, List.mem_singleton] at hk ⊢
    rcases hk with hk | rfl
    · exact h.limq k hk
    · omega
  cinv := ⟨h.cinv.w1, h.cinv.b1, h.cinv.w4⟩
  alt := h.alt
  units := h.units
  nonempty := h.nonempty
  asmBound := h.asmBound
  asm := h.asm
  asmTrue := by
    intro i p hip hi
    simp only [Trail.newDecisionLevel, Trail.decisionLevel, List.length_append, List.length_cons,
      List.length_nil] at hip hi ⊢
    by_cases hlt : i < s.trail.decisionLevel
    · exact h.asmTrue i p hip hlt
    · have : i = s.trail.decisionLevel := by unfold Trail.decisionLevel at *; omega
      subst this
      have hm := hp p hip
      have := h.core.tinv.level_le hm
      exact ⟨hm, by omega⟩

theorem SInv.decide {s : Solver} (h : SInv F A s) (hq : s.trail.qhead = s.trail.stack.length)
    {p : Lit} (hv : s.trail.value p = none) (hb : p.var < s.db.nVars)
    (hp : ∀ q, s.trail.assumptions[s.trail.decisionLevel]? = some q → q = p) :
    SInv F A { s with trail := s.trail.newDecisionLevel.decide p } := by
  have hc := newLevel_core h.core
  have hv' : s.trail.newDecisionLevel.value p = none := hv
  have hdl : s.trail.newDecisionLevel.decisionLevel = s.trail.decisionLevel + 1 := by
    simp [Trail.decisionLevel, Trail.newDecisionLevel]
  rw [Trail.decide_eq_push]
  have hlv : ∀ l ∈ s.trail.stack,
      (s.trail.newDecisionLevel.push p none).level l.var = s.trail.level l.var := by
    intro l hl
    simp only [Trail.push, upd_ne _ _ (ne_var_of_mem h.core.tinv hv hl)]; rfl
  have hre : ∀ l ∈ s.trail.stack,
      (s.trail.newDecisionLevel.push p none).reason l.var = s.trail.reason l.var := by
    intro l hl
    simp only [Trail.push, upd_ne _ _ (ne_var_of_mem h.core.tinv hv hl)]; rfl
  have hmem : ∀ l, l ∈ (s.trail.newDecisionLevel.push p none).stack ↔ l ∈ s.trail.stack ∨ l = p := by
    intro l
    simp [Trail.push, Trail.setValue, Trail.newDecisionLevel]
  have hplev : (s.trail.newDecisionLevel.push p none).level p.var = s.trail.decisionLevel + 1 := by
    simp only [Trail.push, upd_same, hdl]
  exact {
    db := h.db
    core := {
      tinv := Trail.push_inv hc.tinv hv' (by rw [hc.nv]; exact hb)
      nv := hc.nv
      wf := hc.wf
      nd := hc.nd
      ent := hc.ent
      rsome := fun pre q post c hs hr => by
        rcases append_singleton_split hs with ⟨_, rfl, rfl⟩ | ⟨post', _, hs'⟩
        · simp [Trail.push] at hr
        · have hq : q ∈ s.trail.stack := by
            have : s.trail.stack = pre ++ q :: post' := hs'
            rw [this]; simp
          rw [hre q hq] at hr
          exact h.core.rsome pre q post' c hs' hr
      rnone := fun pre q post hs hr => by
        rcases append_singleton_split hs with ⟨_, rfl, rfl⟩ | ⟨post', _, hs'⟩
        · right
          rw [hplev]
          refine ⟨by omega, ?_⟩
          simp [Trail.push, Trail.setValue, Trail.newDecisionLevel, Trail.decisionLevel]
        · have hq : q ∈ s.trail.stack := by
            have : s.trail.stack = pre ++ q :: post' := hs'
            rw [this]; simp
          rw [hre q hq] at hr
          rw [hlv q hq]
          exact hc.rnone pre q post' hs' hr
      binInv := hc.binInv }
    watch := h.watch
    limq := by
      intro k hk
      simp only [Trail.push, Trail.setValue, Trail.newDecisionLevel, List.mem_append,
        List.mem_singleton] at hk ⊢
      rcases hk with hk | rfl
      · exact h.limq k hk
      · omega
    cinv := by
      have : CInv A s.db.store s.watch s.db.bin s.trail.newDecisionLevel (fun _ _ => False) :=
        ⟨h.cinv.w1, h.cinv.b1, h.cinv.w4⟩
      exact this.push hc.tinv hv'
    alt := h.alt
    units := fun c hA l hl => by
      obtain ⟨a, b⟩ := h.units c hA l hl
      exact ⟨(hmem l).2 (Or.inl a), by simp only; rw [hlv l a]; exact b⟩
    nonempty := h.nonempty
    asmBound := h.asmBound
    asm := fun q hq hr h0 hle => by
      simp only at hq hr h0 hle ⊢
      rcases (hmem q).1 hq with h1 | rfl
      · rw [hlv q h1] at h0 hle ⊢
        rw [hre q h1] at hr
        exact h.asm q h1 hr h0 hle
      · rw [hplev] at hle ⊢
        simp only [Trail.push, Trail.setValue, Trail.newDecisionLevel] at hle ⊢
        have hlt : s.trail.decisionLevel < s.trail.assumptions.length := by omega
        have he := List.getElem?_eq_getElem hlt
        have := hp _ he
        simp only [Nat.add_sub_cancel]
        rw [he, this]
    asmTrue := fun i q hiq hi => by
      simp only [Trail.push, Trail.setValue, Trail.newDecisionLevel, Trail.decisionLevel,
        List.length_append, List.length_cons, List.length_nil] at hiq hi
      by_cases hlt : i < s.trail.decisionLevel
      · obtain ⟨a, b⟩ := h.asmTrue i q hiq hlt
        exact ⟨(hmem q).2 (Or.inl a), by simp only; rw [hlv q a]; exact b⟩
      · have : i = s.trail.decisionLevel := by unfold Trail.decisionLevel at *; omega
        subst this
        have := hp q hiq
        subst this
        exact ⟨(hmem q).2 (Or.inr rfl), by simp only; rw [hplev]; omega⟩ }

theorem assumeLoop_spec : ∀ (ps : List Lit) (s : Solver), SInv F A s →
    s.trail.qhead = s.trail.stack.length →
    s.trail.assumptions.drop s.trail.decisionLevel = ps →
    ∀ T' out, assumeLoop s.trail ps = (T', out) →
      SInv F A { s with trail := T' } ∧ T'.qhead = T'.stack.length ∧
      T'.assumptions = s.trail.assumptions ∧ T'.decision = s.trail.decision ∧
      T'.nVars = s.trail.nVars ∧ T'.stack = s.trail.stack ∧
      (match out with
        | .allSet => T'.assumptions.length ≤ T'.decisionLevel
        | .failed p => T'.value p = some false ∧ T'.assumptions[T'.decisionLevel]? = some p
        | .next p => T'.value p = none ∧ T'.assumptions[T'.decisionLevel]? = some p)
  | [], s, h, hq, hd, T', out, he => by
    simp only [assumeLoop, Prod.mk.injEq] at he
    obtain ⟨rfl, rfl⟩ := he
    exact ⟨h, hq, rfl, rfl, rfl, rfl, List.drop_eq_nil_iff.1 hd⟩
  | p :: ps, s, h, hq, hd, T', out, he => by
    have hp : s.trail.assumptions[s.trail.decisionLevel]? = some p := by
      rw [← List.head?_drop, hd]; rfl
    rw [assumeLoop] at he
    cases hv : s.trail.value p with
    | none =>
      rw [hv] at he
      simp only [Prod.mk.injEq] at he
      obtain ⟨rfl, rfl⟩ := he
      exact ⟨h, hq, rfl, rfl, rfl, rfl, hv, hp⟩
    | some b =>
      cases b with
      | false =>
        rw [hv] at he
        simp only [Prod.mk.injEq] at he
        obtain ⟨rfl, rfl⟩ := he
        exact ⟨h, hq, rfl, rfl, rfl, rfl, hv, hp⟩
      | true =>
        rw [hv] at he
        simp only at he
        have hn := h.newLevel hq (by
          intro q hqq
          rw [hp] at hqq
          simp at hqq; subst hqq
          exact (h.core.tinv.val p).1 hv)
        have hd' : s.trail.newDecisionLevel.assumptions.drop s.trail.newDecisionLevel.decisionLevel =
            ps := by
          have : s.trail.newDecisionLevel.decisionLevel = s.trail.decisionLevel + 1 := by
            simp [Trail.decisionLevel, Trail.newDecisionLevel]
          rw [this]
          show s.trail.assumptions.drop (s.trail.decisionLevel + 1) = ps
          rw [← List.drop_drop, hd]; rfl
        have := assumeLoop_spec ps { s with trail := s.trail.newDecisionLevel } hn hq hd' T' out he
        exact this

/-- The situation in which `search` reports a model. -/
structure Complete (s : Solver) : Prop where
  qhead : s.trail.qhead = s.trail.stack.length
  decided : ∀ v < s.trail.nVars, s.trail.decision v = true → s.trail.assigns v ≠ none
  assumptions : ∀ p ∈ s.trail.assumptions, p ∈ s.trail.stack

/-- The situation in which `search` reports unsatisfiability. -/
def Refuted (F : CNF) (s s' : Solver) : Prop :=
  (s'.conflict = s.conflict ∧ ¬ Satisfiable F) ∨
  ∃ core, core ≠ [] ∧ s'.conflict = s.conflict ++ core ∧ Entails F core ∧
    ∀ l ∈ core, l.neg ∈ s.trail.assumptions

/-- Clauses, trail and assumptions use decision variables only. -/
structure DInv (s : Solver) : Prop where
  cls : ∀ c < s.db.next, ∀ l ∈ (s.db.store c).lits, s.trail.decision l.var = true
  tr : ∀ l ∈ s.trail.stack, s.trail.decision l.var = true
  asm : ∀ l ∈ s.trail.assumptions, s.trail.decision l.var = true

def IterOK (F : CNF) (A : Nat → Prop) (s : Solver) : IterOut → Prop
  | .cont s' => Frame F s s' ∧ s'.conflict = s.conflict ∧
      (DInv s → DInv s') ∧
      ∃ A', (∀ c, A c → A' c) ∧ SInv F A' s' ∧ (∀ c ∈ s'.db.clauses, c ∈ s.db.clauses ∨ A' c)
  | .done s' r => (DInv s → DInv s') ∧ s'.db.clauses = s.db.clauses ∧ Frame F s s' ∧ DBOk F s'.db ∧
      (r ≠ some false → SInv F A s' ∧ s'.conflict = s.conflict) ∧
      (r = some false → Refuted F s s') ∧ (r = some true → Complete s')

theorem searchIter_spec {s : Solver} (h : SInv F A s) {ch : Choice} (hch : ch.Valid) :
    ∃ out, searchIter s ch = some out ∧ IterOK F A s out := by
  obtain ⟨ps, r, e1, e2, e3, e4, e5, e6, e7, e8, e9⟩ := propagateLoop_spec (A := A)
    (s.db.nVars + 1) ⟨s.db.store, s.watch, s.trail⟩ h.core h.watch h.limq (by omega)
  unfold searchIter
  rw [e1]
  simp only at e2 e3 e4 e5 e6 e7 e8 e9 ⊢
  have e9 := e9 h.cinv
  -- the state after propagation
  have hdb : DBOk F { s.db with store := ps.store } := h.db.perm e5
  have hframe : ∀ T' cf, T'.nVars = ps.T.nVars → T'.assumptions = ps.T.assumptions → T'.decision = ps.T.decision →
      Frame F s { s with db := { s.db with store := ps.store }, watch := ps.watch, trail := T',
                         conflict := cf } := by
    intro T' cf h0 h1 h2
    exact {
      nVars := rfl
      tnVars := h0.trans e4.nVars
      assumptions := h1.trans e4.assumptions
      decision := h2.trans e4.decision
      recalc := rfl
      next := Nat.le_refl _
      perm := fun c _ => (e5 c).1
      weight := fun c _ hw => (e5 c).2.trans hw
      weightRev := fun c _ _ _ hw => (e5 c).2.symm.trans hw
      clauses := ⟨[], by simp⟩
      hasEmpty := rfl
      news := ⟨[], by simp⟩ }
  have hcls : DInv s → ∀ c < s.db.next, ∀ l ∈ (ps.store c).lits, ps.T.decision l.var = true := by
    intro hd c hc l hl
    rw [e4.decision]
    exact hd.cls c hc l ((e5 c).1.mem_iff.1 hl)
  have htr : DInv s → ∀ l ∈ ps.T.stack, ps.T.decision l.var = true := by
    intro hd l hl
    by_cases hm : l ∈ s.trail.stack
    · rw [e4.decision]; exact hd.tr l hm
    · obtain ⟨pre, post, hpp⟩ := List.append_of_mem hl
      obtain ⟨c, hc⟩ := Option.ne_none_iff_exists'.1 (e4.new l hl hm)
      obtain ⟨g1, g2, _⟩ := e2.rsome pre l post c hpp hc
      exact hcls hd c g1 l g2
  have hda : DInv s → ∀ l ∈ ps.T.assumptions, ps.T.decision l.var = true := by
    intro hd l hl
    rw [e4.assumptions] at hl
    rw [e4.decision]; exact hd.asm l hl
  have hunits : ∀ c, A c → ∀ l, (ps.store c).lits = [l] → l ∈ ps.T.stack ∧ ps.T.level l.var = 0 := by
    intro c hA l hl
    have hp := (e5 c).1
    rw [hl] at hp
    obtain ⟨a, b⟩ := h.units c hA l hp.symm.eq_singleton
    exact ⟨e4.mem a, (e4.level l a).trans b⟩
  have hnonempty : ∀ c, A c → (ps.store c).lits ≠ [] := by
    intro c hA hl
    have hp := (e5 c).1
    rw [hl] at hp
    exact h.nonempty c hA hp.symm.eq_nil
  have hab : ∀ l ∈ ps.T.assumptions, l.var < s.db.nVars := by
    rw [e4.assumptions]; exact h.asmBound
  have hasm : ∀ p ∈ ps.T.stack, ps.T.reason p.var = none → 0 < ps.T.level p.var →
      ps.T.level p.var ≤ ps.T.assumptions.length →
      ps.T.assumptions[ps.T.level p.var - 1]? = some p := by
    intro p hp hr h0 hle
    by_cases hm : p ∈ s.trail.stack
    · rw [e4.level p hm] at h0 hle ⊢
      rw [e4.reason p hm] at hr
      rw [e4.assumptions] at hle ⊢
      exact h.asm p hm hr h0 hle
    · exact (e4.new p hp hm hr).elim
  have hasmT : ∀ i p, ps.T.assumptions[i]? = some p → i < ps.T.decisionLevel →
      p ∈ ps.T.stack ∧ ps.T.level p.var ≤ i + 1 := by
    intro i p hip hi
    rw [e4.assumptions] at hip
    rw [e4.decisionLevel] at hi
    obtain ⟨a, b⟩ := h.asmTrue i p hip hi
    exact ⟨e4.mem a, by rw [e4.level p a]; exact b⟩
  cases r with
  | some confl =>
    simp only
    have hconf := e7 confl rfl
    by_cases hdl : ps.T.decisionLevel = 0
    · rw [if_pos hdl]
      refine ⟨_, rfl, fun hd => ⟨hcls hd, htr hd, hda hd⟩, rfl, hframe _ _ rfl rfl rfl, hdb, by simp,
        fun _ => Or.inl ⟨rfl, ?_⟩, by simp⟩
      rintro ⟨x, hx⟩
      obtain ⟨l, hl, hh⟩ := e2.ent confl hconf.lt x hx
      have hln := hconf.allFalse l hl
      have hlev := e2.tinv.level_le hln
      have := Core.level0 e2 hln (by omega)
      rw [Entails.unit] at this
      exact Lit.holds_neg.1 (this x hx) hh
    · rw [if_neg hdl]
      obtain ⟨s', rr, l1, l2, l3, l4, l5, l6, l7, lw, lwr, l8, l9, l10, l11, l12, l13, l14, first, l15, l16, _⟩ :=
        learnStep_spec (F := F) (A := A) (confl := confl)
        (s := { s with db := { s.db with store := ps.store }, watch := ps.watch, trail := ps.T })
        hdb e2 e3 e8 (e9.weaken (by
          intro c _ x y rr _ w _ hw
          exact Or.inl hw.2)) h.alt hunits hnonempty hab hasm hasmT (by simp only; omega) hconf
      rw [l3]
      simp only at l1 l2 l3 l4 l5 l6 l7 lw lwr l8 l9 l10 l11 l12 l13 l14 l15 l16
      refine ⟨_, rfl, ?_, l9, ?_, _, fun c hc => Or.inl hc, l4, ?_⟩
      rotate_left
      · intro hd
        have hdec : s'.trail.decision = ps.T.decision := by
          rw [l16]; simp [Trail.push, Trail.setValue, Trail.backtrack_decision]
        have hlearn : ∀ l ∈ rr.learnt, ps.T.decision l.var = true := by
          intro l hl
          obtain ⟨fst, rest, hsh, hf1, _, hrest, _⟩ := l2.shape
          rw [hsh] at hl
          rcases List.mem_cons.1 hl with rfl | hl
          · have := htr hd _ hf1; simpa using this
          · have := htr hd _ (hrest l hl).1; simpa using this
        refine ⟨?_, ?_, ?_⟩
        · intro c hc l hl
          rw [hdec]
          by_cases hcn : c < s.db.next
          · rw [l6 c hcn] at hl; exact hcls hd c hcn l hl
          · have : c = s.db.next := by omega
            subst this
            rw [l7] at hl; exact hlearn l hl
        · intro l hl
          rw [hdec]
          rw [l16] at hl
          simp only [Trail.push, Trail.setValue, List.mem_append, List.mem_singleton] at hl
          rcases hl with hl | rfl
          · exact htr hd l (Trail.backtrack_subset _ hl)
          · exact hlearn _ (List.mem_of_mem_head? (by rw [l15]; rfl))
        · intro l hl
          rw [hdec]
          rw [l16] at hl
          simp only [Trail.push, Trail.setValue, Trail.backtrack_assumptions] at hl
          exact hda hd l hl
      · intro c hc
        rw [l11] at hc
        rcases List.mem_append.1 hc with hc | hc
        · exact Or.inl hc
        · right; right; simpa using hc
      exact {
        nVars := l8
        tnVars := by
          rw [l16]
          simp only [Trail.push, Trail.setValue, Trail.backtrack_nVars]
          exact e4.nVars
        assumptions := by
          rw [l16]
          simp only [Trail.push, Trail.setValue, Trail.backtrack_assumptions]
          exact e4.assumptions
        decision := by
          rw [l16]
          simp only [Trail.push, Trail.setValue, Trail.backtrack_decision]
          exact e4.decision
        recalc := l10
        next := by omega
        perm := fun c hc => by rw [l6 c hc]; exact (e5 c).1
        weight := fun c hc hw => lw c hc ((e5 c).2.trans hw)
        weightRev := fun c hc hne hlen hw => by
          rw [← (e5 c).2]
          refine lwr c hc ?_ ?_ hw
          · intro e
            have := (e5 c).1; rw [e] at this; exact hne this.symm.eq_nil
          · rw [(e5 c).1.length_eq]; exact hlen
        clauses := ⟨_, l11, by intro c hc; simp at hc; omega⟩
        hasEmpty := l12
        news := ⟨[rr.learnt], by simpa using l13, l14, by simp; exact l2.ent⟩ }
  | none =>
    simp only
    have hq : ps.T.qhead = ps.T.stack.length := e6 rfl
    have hS : SInv F A { s with db := { s.db with store := ps.store }, watch := ps.watch,
                                trail := ps.T } :=
      ⟨hdb, e2, e3, e8, e9.weaken (by intro c _ x y rr _ w _ hw; exact (hw.1 rfl).elim), h.alt,
        hunits, hnonempty, hab, hasm, hasmT⟩
    by_cases hres : ch.restart = true
    · rw [if_pos hres]
      exact ⟨_, rfl, fun hd => ⟨hcls hd, htr hd, hda hd⟩, rfl, hframe _ _ rfl rfl rfl, hdb,
        fun _ => ⟨hS, rfl⟩, by simp, by simp⟩
    · rw [if_neg hres]
      generalize hout : assumeLoop ps.T (ps.T.assumptions.drop ps.T.decisionLevel) = out
      obtain ⟨T', o⟩ := out
      obtain ⟨a1, a2, a3, a4, a5, a6, a7⟩ := assumeLoop_spec _ _ hS hq rfl T' o hout
      have hdT : DInv s → ∀ {cf}, DInv
          { s with db := { s.db with store := ps.store }, watch := ps.watch, trail := T',
                   conflict := cf } := by
        intro hd cf
        refine ⟨?_, ?_, ?_⟩
        · intro c hc l hl; simp only; rw [a4]; exact hcls hd c hc l hl
        · intro l hl; simp only at hl ⊢; rw [a4]; rw [a6] at hl; exact htr hd l hl
        · intro l hl; simp only at hl ⊢; rw [a4]; rw [a3] at hl; exact hda hd l hl
      have hdD : ∀ p : Lit, DInv s → T'.decision p.var = true →
          DInv { s with db := { s.db with store := ps.store }, watch := ps.watch,
                        trail := T'.newDecisionLevel.decide p } := by
        intro p hd hp
        have h1 := hdT hd (cf := s.conflict)
        refine ⟨h1.cls, ?_, h1.asm⟩
        intro l hl
        simp only [Trail.decide, Trail.setValue, Trail.newDecisionLevel, List.mem_append,
          List.mem_singleton] at hl
        rcases hl with hl | rfl
        · exact h1.tr l hl
        · exact hp
      cases o with
      | failed p =>
        simp only at a7 ⊢
        refine ⟨_, rfl, fun hd => hdT hd, rfl, hframe _ _ (a1.core.nv.trans e2.nv.symm) a3 a4, hdb, by simp,
          fun _ => Or.inr ?_, by simp⟩
        have hpn : p.neg ∈ T'.stack := (a1.core.tinv.valFalse p).1 a7.1
        obtain ⟨f1, f2, f3⟩ := analyzeFinal_spec a1.core hpn
        refine ⟨_, List.ne_nil_of_mem f2, rfl, f1, ?_⟩
        intro l hl
        have hass : T'.assumptions = s.trail.assumptions := a3.trans e4.assumptions
        rw [← hass]
        rcases f3 l hl with rfl | ⟨g1, g2, g3⟩
        · rw [Lit.neg_neg]; exact List.mem_of_getElem? a7.2
        · have hlev := a1.core.tinv.level_le g1
          have hlen := (List.getElem?_eq_some_iff.1 a7.2).1
          have := a1.asm l.neg g1 (by simpa using g2) (by simpa using g3)
            (by simp only [Lit.var_neg] at hlev ⊢; omega)
          exact List.mem_of_getElem? this
      | next p =>
        simp only at a7 ⊢
        refine ⟨_, rfl, hframe _ _ (a1.core.nv.trans e2.nv.symm) a3 a4, rfl, fun hd => hdD p hd ?_, A, fun c hc => hc, ?_,
          fun c hc => Or.inl hc⟩
        · have := (hdT hd (cf := s.conflict)).asm p (List.mem_of_getElem? a7.2)
          exact this
        exact a1.decide a2 a7.1 (a1.asmBound p (List.mem_of_getElem? a7.2)) (by
          intro q hq
          rw [a7.2] at hq; simpa using hq.symm)
      | allSet =>
        simp only at a7 ⊢
        have hpick := hch T'
        cases hpk : ch.pick T' with
        | none =>
          rw [hpk] at hpick
          simp only at hpick ⊢
          refine ⟨_, rfl, fun hd => hdT hd, rfl, hframe _ _ (a1.core.nv.trans e2.nv.symm) a3 a4, hdb, fun _ => ⟨a1, rfl⟩, by simp,
            fun _ => ⟨a2, hpick, ?_⟩⟩
          intro p hp
          obtain ⟨i, hi, hie⟩ := List.getElem_of_mem hp
          simp only at hi hie
          exact (a1.asmTrue i p (by simp only; rw [← hie]; exact List.getElem?_eq_getElem hi)
            (by simp only; omega)).1
        | some p =>
          rw [hpk] at hpick
          simp only at hpick ⊢
          refine ⟨_, rfl, hframe _ _ (a1.core.nv.trans e2.nv.symm) a3 a4, rfl, fun hd => hdD p hd hpick.2.2, A, fun c hc => hc, ?_,
            fun c hc => Or.inl hc⟩
          refine a1.decide a2 ((Trail.value_none_iff _ _).2 hpick.2.1) ?_ ?_
          · have := a1.core.nv
            simp only at this ⊢
            rw [← this]; exact hpick.1
          · intro q hq
            have := (List.getElem?_eq_some_iff.1 hq).1
            simp only at this a7
            omega

/-- Everything the whole search guarantees. -/
theorem search_spec : ∀ (fuel : Nat) (o : Nat → Choice) (A : Nat → Prop) (s : Solver), SInv F A s →
    (∀ i, (o i).Valid) → ∀ s' r, search fuel o s = some (s', r) →
    (DInv s → DInv s') ∧ Frame F s s' ∧ DBOk F s'.db ∧
      (r ≠ some false → s'.conflict = s.conflict ∧
        ∃ A', (∀ c, A c → A' c) ∧ SInv F A' s' ∧
          (∀ c ∈ s'.db.clauses, c ∈ s.db.clauses ∨ A' c)) ∧
      (r = some false → Refuted F s s') ∧ (r = some true → Complete s')
  | 0, o, A, s, _, _, s', r, he => by simp [search] at he
  | fuel + 1, o, A, s, h, ho, s', r, he => by
    rw [search] at he
    obtain ⟨out, h1, h2⟩ := searchIter_spec h (ho 0)
    rw [h1] at he
    cases out with
    | done s1 r1 =>
      simp only [Option.some.injEq, Prod.mk.injEq] at he
      obtain ⟨rfl, rfl⟩ := he
      obtain ⟨z, y, a, b, c, d, e⟩ := h2
      exact ⟨z, a, b, fun hr => ⟨(c hr).2, A, fun _ h => h, (c hr).1,
        fun k hk => Or.inl (by rw [← y]; exact hk)⟩, d, e⟩
    | cont s1 =>
      simp only at he
      obtain ⟨a, hcf, z, A1, b, c, y⟩ := h2
      obtain ⟨f0, f1, f2, f3, f4, f5⟩ := search_spec fuel (fun i => o (i + 1)) A1 s1 c
        (fun i => ho (i + 1)) s' r he
      refine ⟨fun hd => f0 (z hd), a.trans f1, f2, fun hr => ?_, fun hr => ?_, f5⟩
      · obtain ⟨g1, A', g2, g3, g4⟩ := f3 hr
        refine ⟨g1.trans hcf, A', fun c hc => g2 c (b c hc), g3, fun k hk => ?_⟩
        rcases g4 k hk with h | h
        · rcases y k h with h | h
          · exact Or.inl h
          · exact Or.inr (g2 k h)
        · exact Or.inr h
      · rcases f4 hr with ⟨g1, g2⟩ | ⟨core, g1, g2, g3, g4⟩
        · exact Or.inl ⟨g1.trans hcf, g2⟩
        · exact Or.inr ⟨core, g1, by rw [g2, hcf], g3, by rw [← a.assumptions]; exact g4⟩

/-- In a complete state every clause with an assigned watched literal is satisfied. -/
theorem SInv.satisfied {s : Solver} (h : SInv F A s) (hc : Complete s) {c : Nat} (hA : A c)
    (hv : ∀ l ∈ (s.db.store c).lits, s.trail.decision l.var = true) :
    ∃ l ∈ (s.db.store c).lits, l ∈ s.trail.stack := by
  have hassigned : ∀ l ∈ (s.db.store c).lits, s.trail.assigns l.var ≠ none := by
    intro l hl
    exact hc.decided l.var (by rw [h.core.nv]; exact h.core.wf c (h.alt c hA) l hl) (hv l hl)
  match hl : (s.db.store c).lits with
  | [] => exact (h.nonempty c hA hl).elim
  | [l] => exact ⟨l, by simp, (h.units c hA l hl).1⟩
  | x :: y :: r =>
    rcases h.cinv.w4 c hA x y r hl x (Or.inl rfl) with h1 | h1
    · exact h1.elim
    · by_cases hx : x ∈ s.trail.stack
      · exact ⟨x, by simp, hx⟩
      · have : x.neg ∈ s.trail.stack := by
          by_cases hn : x.neg ∈ s.trail.stack
          · exact hn
          · have := (h.core.tinv.valNone x).2 ⟨hx, hn⟩
            rw [Trail.value_none_iff] at this
            exact (hassigned x (by rw [hl]; simp) this).elim
        obtain ⟨l, hlm, hls, _⟩ := h1 (by
          rw [hc.qhead, List.take_length]; exact this)
        exact ⟨l, by rw [← hl]; exact hlm, hls⟩

end Candy
