import Verif.Proofs.Drat

/-! The proof checker preserves satisfiability of its live clauses line by line. -/

namespace Candy

variable {live live' : Nat → Prop} {store store' : Nat → Cls} {watch watch' bin : Lit → List Watcher} {nV : Nat}

theorem fact_inv {T : Trail} (h : T.Inv) (hl : T.lim = []) {p : Lit} (hv : p.var < T.nVars) :
    (T.fact p).1.Inv ∧ (T.fact p).1.nVars = T.nVars ∧ (T.fact p).1.lim = [] ∧
    ((T.fact p).2 = false → p.neg ∈ T.stack) ∧
    ((T.fact p).1.stack = T.stack ∨ (T.fact p).1.stack = T.stack ++ [p]) := by
  have hi : ({ T with reason := upd T.reason p.var none, level := upd T.level p.var 0 } : Trail).Inv := {
    val := h.val
    nodup := h.nodup
    bound := h.bound
    limSorted := h.limSorted
    limLe := h.limLe
    lev := by
      intro pre q post hs
      simp only [upd_apply, hl]
      split
      · simp
      · have := h.lev pre q post hs
        rw [hl] at this; exact this
    qle := h.qle }
  unfold Trail.fact
  by_cases hf : T.falsifies p = true
  · rw [if_pos hf]
    refine ⟨h, rfl, hl, fun _ => ?_, Or.inl rfl⟩
    exact (h.valFalse p).1 (by simpa [Trail.falsifies] using hf)
  · rw [if_neg hf]
    dsimp only
    by_cases hs : T.satisfies p = true
    · rw [if_pos hs]
      exact ⟨hi, rfl, hl, by simp, Or.inl rfl⟩
    · rw [if_neg hs]
      have hvn : T.value p = none := by
        cases hv : T.value p with
        | none => rfl
        | some b => cases b <;> simp [Trail.falsifies, Trail.satisfies, hv] at hf hs
      have he : ({ T with reason := upd T.reason p.var none, level := upd T.level p.var 0 } : Trail).setValue p
          = T.push p none := by
        simp [Trail.push, Trail.setValue, Trail.decisionLevel, hl]
      rw [he]
      exact ⟨Trail.push_inv h hvn hv, rfl, hl, by simp, Or.inr rfl⟩

theorem WCount.mono (h : WCount live store watch) (hlive : ∀ c, live c → live' c)
    (hst : ∀ c, live c → (store' c).lits = (store c).lits) : WCount live' store' watch where
  mem p w hw := by
    obtain ⟨h1, x, y, r, h2, h3⟩ := h.mem p w hw
    exact ⟨hlive _ h1, x, y, r, by rw [hst _ h1, h2], h3⟩
  cnt p c x y r hl := by
    by_cases hex : ∃ w ∈ watch p, w.cref = c
    · obtain ⟨w, hw, rfl⟩ := hex
      have h1 := (h.mem p w hw).1
      exact h.cnt p _ x y r (by rw [← hst _ h1]; exact hl)
    · have : (watch p).countP (fun w => w.cref == c) = 0 := by
        rw [List.countP_eq_zero]
        intro w hw he
        exact hex ⟨w, hw, by simpa using he⟩
      omega

theorem mem_addBin' {c : Nat} {x y p : Lit} {w : Watcher} :
    w ∈ DB.addBin bin c x y p ↔
      w ∈ bin p ∨ (p = x.neg ∧ w = ⟨c, y⟩) ∨ (p = y.neg ∧ w = ⟨c, x⟩) := by
  unfold DB.addBin
  simp only [List.mem_append]
  by_cases h1 : p = x.neg <;> by_cases h2 : p = y.neg <;> simp [h1, h2]

theorem WCount.attach (h : WCount live store watch) {c : Nat} {x y : Lit} {r : List Lit} (hc : live c)
    (hl : (store c).lits = x :: y :: r) (hr : r ≠ [])
    (hno : ∀ (p : Lit) (w : Watcher), w ∈ watch p → w.cref ≠ c) :
    WCount live store (DB.addBin watch c x y) where
  mem p w hw := by
    rcases mem_addBin'.1 hw with hw | ⟨_, rfl⟩ | ⟨_, rfl⟩
    · exact h.mem p w hw
    · exact ⟨hc, x, y, r, hl, hr⟩
    · exact ⟨hc, x, y, r, hl, hr⟩
  cnt p d x' y' r' hl' := by
    by_cases hd : d = c
    · subst hd
      rw [hl] at hl'
      simp only [List.cons.injEq] at hl'
      obtain ⟨rfl, rfl, rfl⟩ := hl'
      have h0 : (watch p).countP (fun w => w.cref == d) = 0 := by
        rw [List.countP_eq_zero]
        intro w hw he
        exact hno p w hw (by simpa using he)
      unfold DB.addBin watchSlots
      simp only [List.countP_append, h0]
      have e1 : (x.neg = p) = (p = x.neg) := propext eq_comm
      have e2 : (y.neg = p) = (p = y.neg) := propext eq_comm
      simp only [e1, e2]
      by_cases h1 : p = x.neg <;> by_cases h2 : p = y.neg
      · rw [if_pos h1, if_pos h2, if_pos h1, if_pos h2]; simp
      · rw [if_pos h1, if_neg h2, if_pos h1, if_neg h2]; simp
      · rw [if_neg h1, if_pos h2, if_neg h1, if_pos h2]; simp
      · rw [if_neg h1, if_neg h2, if_neg h1, if_neg h2]; simp
    · have := h.cnt p d x' y' r' hl'
      have hcd : (c == d) = false := by simpa using fun h => hd h.symm
      have e : (DB.addBin watch c x y p).countP (fun w => w.cref == d) =
          (watch p).countP (fun w => w.cref == d) := by
        unfold DB.addBin
        rw [List.countP_append, List.countP_append]
        by_cases h1 : p = x.neg <;> by_cases h2 : p = y.neg
        · rw [if_pos h1, if_pos h2]; simp [hcd]
        · rw [if_pos h1, if_neg h2]; simp [hcd]
        · rw [if_neg h1, if_pos h2]; simp [hcd]
        · rw [if_neg h1, if_neg h2]; simp
      omega

theorem WCount.sub (h : WCount live store watch) (hsub : ∀ p, (watch' p).Sublist (watch p))
    (hlive : ∀ (p : Lit) (w : Watcher), w ∈ watch' p → live' w.cref)
    (hst : ∀ c, (store' c).lits = (store c).lits) : WCount live' store' watch' where
  mem p w hw := by
    obtain ⟨_, x, y, r, h2, h3⟩ := h.mem p w ((hsub p).subset hw)
    exact ⟨hlive p w hw, x, y, r, by rw [hst, h2], h3⟩
  cnt p c x y r hl := by
    have := h.cnt p c x y r (by rw [← hst]; exact hl)
    have := (hsub p).countP_le (p := fun w => w.cref == c)
    omega

theorem WCount.nil : WCount live store (fun _ => []) :=
  ⟨by simp, by simp⟩

theorem attachAll_wcount :
    ∀ (cs : List Nat) (w : Lit → List Watcher), cs.Nodup → (∀ c ∈ cs, live c) → WCount live store w →
      (∀ (p : Lit) (v : Watcher), v ∈ w p → v.cref ∉ cs) → WCount live store (attachAll store w cs)
  | [], w, _, _, h, _ => h
  | c :: cs, w, hnd, hl, h, hno => by
    rw [List.nodup_cons] at hnd
    unfold attachAll
    rw [List.foldl_cons]
    refine attachAll_wcount cs _ hnd.2 (fun x hx => hl x (by simp [hx])) ?_ ?_
    · split
      · rename_i x y z r heq
        exact h.attach (hl c (by simp)) heq (by simp) (fun p v hv he => hno p v hv (by simp [he]))
      · exact h
    · have step : ∀ (ls : List Lit) (p : Lit) (v : Watcher), v ∈ (match ls with
          | x :: y :: _ :: _ => DB.addBin w c x y
          | _ => w) p → v ∈ w p ∨ v.cref = c := by
        intro ls p v hv
        match ls, hv with
        | [], hv => exact Or.inl hv
        | [_], hv => exact Or.inl hv
        | [_, _], hv => exact Or.inl hv
        | x :: y :: _ :: _, hv =>
          rcases mem_addBin'.1 hv with hv | ⟨_, rfl⟩ | ⟨_, rfl⟩
          · exact Or.inl hv
          · exact Or.inr rfl
          · exact Or.inr rfl
      intro p v hv hin
      rcases step _ p v hv with hv | he
      · exact hno p v hv (by simp [hin])
      · exact hnd.1 (he ▸ hin)

theorem BinOk.addBin (h : BinOk live store bin) {c : Nat} {x y : Lit} (hc : live c)
    (hl : (store c).lits = [x, y]) : BinOk live store (DB.addBin bin c x y) := by
  intro p w hw
  rcases mem_addBin'.1 hw with hw | ⟨rfl, rfl⟩ | ⟨rfl, rfl⟩
  · exact h p w hw
  · exact ⟨hc, Or.inl (by simpa using hl)⟩
  · exact ⟨hc, Or.inr (by simpa using hl)⟩

theorem BinOk.mono (h : BinOk live store bin) (hlive : ∀ c, live c → live' c)
    (hst : ∀ c, live c → (store' c).lits = (store c).lits) : BinOk live' store' bin := by
  intro p w hw
  obtain ⟨h1, h2⟩ := h p w hw
  exact ⟨hlive _ h1, by rw [hst _ h1]; exact h2⟩

theorem reinitBin_ok {db : DB} (hl : ∀ c ∈ db.clauses, live c) :
    BinOk live db.store db.reinitBin.bin := by
  unfold DB.reinitBin
  suffices ∀ (cs : List Nat) (b : Lit → List Watcher), (∀ c ∈ cs, live c) → BinOk live db.store b →
      BinOk live db.store (cs.foldl (fun b c => match db.lits c with
        | [x, y] => DB.addBin b c x y
        | _ => b) b) from
    this db.clauses _ hl (by intro p w hw; simp at hw)
  intro cs
  induction cs with
  | nil => intro b _ h; exact h
  | cons c cs ih =>
    intro b hl h
    rw [List.foldl_cons]
    refine ih _ (fun x hx => hl x (by simp [hx])) ?_
    split
    · rename_i x y heq
      exact h.addBin (hl c (by simp)) heq
    · exact h

namespace Checker

/-- The invariant between two lines of the proof. -/
structure CkInv (F : CNF) (ck : Checker) : Prop where
  struct : Struct ck
  lim : ck.T.lim = []
  occIn : ∀ l c, c ∈ ck.occ l → c ∈ ck.db.clauses
  sem : Satisfiable F → ck.db.hasEmpty = false ∧ (∃ a, ck.Models a) ∧
    ∀ l ∈ ck.T.stack, ∃ c, ck.live c ∧ ck.db.lits c = [l]

/-- Making a literal true. -/
def _root_.Candy.Assign.make (a : Assign) (p : Lit) : Assign := fun v => if v = p.var then !p.sign else a v

theorem make_same (a : Assign) (p : Lit) : p.holds (a.make p) := by
  simp [Lit.holds, Assign.make]

theorem make_keep {a : Assign} {p l : Lit} (h : l.holds a) (hne : l ≠ p.neg) : l.holds (a.make p) := by
  by_cases hv : l.var = p.var
  · rcases Lit.eq_or_neg_of_var hv with rfl | rfl
    · exact make_same a l
    · exact (hne rfl).elim
  · simpa [Lit.holds, Assign.make, hv] using h

/-- An accepted clause can be added without losing satisfiability. -/
theorem accepted_model {ck ck1 ck2 : Checker} {ls : Clause} {r : Bool} (hs : Struct ck)
    (he : ck.db.hasEmpty = false) (hlim : ck.T.lim = [])
    (hfacts : ∀ l ∈ ck.T.stack, ∃ c, ck.live c ∧ ck.db.lits c = [l])
    (h1 : ck.checkAsymm ls none = some (ck1, r))
    (h2 : (if r then some (ck1, true) else ratLoop ck1.T.decisionLevel ls ck1) = some (ck2, true))
    {a : Assign} (ha : ck.Models a) :
    (∃ a', ck.Models a' ∧ SatClause a' ls) ∧ (ck2.T.backtrack 0).stack = ck.T.stack := by
  obtain ⟨s1, s2, s3, s4, s5, s6, s7⟩ := checkAsymm_spec hs h1
  have hst : SatStack ck.T a := by
    intro l hl
    obtain ⟨c, hc, hcl⟩ := hfacts l hl
    obtain ⟨l', hl', hh⟩ := ha c hc
    rw [show (ck.db.store c).lits = [l] from hcl] at hl'
    simp at hl'; subst hl'; exact hh
  have hrat : r = false → Struct ck2 ∧ Frame ck1 ck2 ∧ Same ck1.T ck2.T ∧
      ∀ b, ck1.db.hasEmpty = false → ck1.Models b → SatStack ck1.T b → SatStack ck2.T b ∧
        (true = true → ∃ p ∈ ls, ∀ c, ck1.live c → p.neg ∈ ck1.db.lits c →
          ∃ l ∈ ck1.db.lits c, l ≠ p.neg ∧ l.holds b) := by
    intro hr
    rw [hr] at h2
    exact ratLoop_spec ls ck1 _ ck2 true s1 rfl h2
  -- a model that falsifies the clause can be changed at a pivot
  have hpiv : (∀ l ∈ ls, l.neg.holds a) → r = false ∧ ∃ p ∈ ls, ∀ c, ck.live c → p.neg ∈ ck.db.lits c →
      ∃ l ∈ ck.db.lits c, l ≠ p.neg ∧ l.holds a := by
    intro hneg
    obtain ⟨hr, hst1⟩ := s6 a he ha hst (fun l hl _ => hneg l hl)
    refine ⟨hr, ?_⟩
    obtain ⟨_, _, _, k⟩ := hrat hr
    obtain ⟨_, k2⟩ := k a (by rw [s2.hasEmpty]; exact he) ((s2.models a).2 ha) hst1
    obtain ⟨p, p1, p2⟩ := k2 rfl
    refine ⟨p, p1, fun c hc hp => ?_⟩
    obtain ⟨l, l1, l2, l3⟩ := p2 c ((s2.live c).2 hc) ((s2.mem c _).2 hp)
    exact ⟨l, (s2.mem c l).1 l1, l2, l3⟩
  constructor
  · by_cases hsat : SatClause a ls
    · exact ⟨a, ha, hsat⟩
    · have hneg : ∀ l ∈ ls, l.neg.holds a := by
        intro l hl
        rw [Lit.holds_neg]
        exact fun hh => hsat ⟨l, hl, hh⟩
      obtain ⟨_, p, p1, p2⟩ := hpiv hneg
      refine ⟨a.make p, fun c hc => ?_, p, p1, make_same a p⟩
      by_cases hp : p.neg ∈ ck.db.lits c
      · obtain ⟨l, l1, l2, l3⟩ := p2 c hc hp
        exact ⟨l, l1, make_keep l3 l2⟩
      · obtain ⟨l, l1, l3⟩ := ha c hc
        exact ⟨l, l1, make_keep l3 (fun h => hp (h ▸ l1))⟩
  · -- the trail
    obtain ⟨suf, lsuf, e1, e2, e3⟩ := s3.ext
    rw [hlim, List.nil_append] at e2
    have hsame : Same ck1.T ck2.T := by
      cases hr : r with
      | true =>
        rw [hr] at h2
        simp only [if_true, Option.some.injEq, Prod.mk.injEq, and_true] at h2
        subst h2; exact Same.refl _
      | false => exact (hrat hr).2.2.1
    obtain ⟨suf2, e4⟩ := hsame.ext
    rcases e3 with rfl | ⟨rest, rfl⟩
    · -- no decision was made
      have hl2 : ck2.T.lim = [] := by rw [hsame.lim, e2]
      rw [Trail.backtrack_none (by rw [hl2]; simp)]
      have hstuck : (∀ l ∈ ls, l.neg ∈ ck.T.stack) → False := by
        intro hall
        obtain ⟨_, p, p1, p2⟩ := hpiv (fun l hl => hst _ (hall l hl))
        obtain ⟨c, hc, hcl⟩ := hfacts _ (hall p p1)
        obtain ⟨l, l1, l2, _⟩ := p2 c hc (by rw [hcl]; simp)
        rw [hcl] at l1; simp at l1
        exact l2 l1
      have hl1 : ck1.T.lim = ck.T.lim := by rw [e2, hlim]
      cases hr : r with
      | true =>
        rcases s4 hl1 hr he with h | h
        · rw [hr] at h2
          simp only [if_true, Option.some.injEq, Prod.mk.injEq, and_true] at h2
          rw [← h2, h]
        · exact (hstuck (fun l hl => h l hl (by simp))).elim
      | false => exact (hstuck (fun l hl => s5 hl1 hr l hl (by simp))).elim
    · have hl2 : ck2.T.lim = ck.T.stack.length :: rest := by rw [hsame.lim, e2]
      rw [Trail.backtrack_stack (k := ck.T.stack.length) (by rw [hl2]; rfl), e4, e1]
      simp

/-- Adding a clause to the structures of the checker. -/
def added (ck : Checker) (ls : Clause) : Checker :=
  { ck with
    db := (ck.db.createClause ls).1
    watch := match ls with
      | x :: y :: _ :: _ => DB.addBin ck.watch ck.db.next x y
      | _ => ck.watch
    occ := fun l => ck.occ l ++ List.replicate (ls.count l) ck.db.next }

theorem added_live {ck : Checker} (_hs : Struct ck) (ls : Clause) (c : Nat) :
    (ck.added ls).live c ↔ ck.live c ∨ c = ck.db.next := by
  unfold live added
  simp only [createClause_clauses, createClause_store, List.mem_append, List.mem_singleton]
  by_cases hc : c = ck.db.next
  · subst hc
    simp only [upd_same, Cls.isDeleted, Cls.deletedWeight, or_true, true_and]
    simp
  · rw [upd_ne _ _ hc]
    simp [hc]

theorem added_lits_new (ck : Checker) (ls : Clause) : (ck.added ls).db.lits ck.db.next = ls := by
  simp [added, DB.lits]

theorem added_lits_old {ck : Checker} (ls : Clause) {c : Nat} (hc : c ≠ ck.db.next) :
    (ck.added ls).db.lits c = ck.db.lits c := by
  simp [added, DB.lits, upd_ne _ _ hc]

theorem live_ne_next {ck : Checker} (hs : Struct ck) {c : Nat} (hc : ck.live c) : c ≠ ck.db.next := by
  have := hs.fresh c hc.1
  omega

theorem added_struct {ck : Checker} (hs : Struct ck) {ls : Clause} (hv : ∀ l ∈ ls, l.var < ck.db.nVars) :
    Struct (ck.added ls) where
  tinv := hs.tinv
  nv := by show ck.T.nVars = (ck.db.createClause ls).1.nVars; rw [createClause_nVars]; exact hs.nv
  fresh c hc := by
    simp only [added, createClause_clauses, List.mem_append, List.mem_singleton, createClause_next] at hc ⊢
    rcases hc with hc | rfl
    · have := hs.fresh c hc; omega
    · omega
  wf c hc l hl := by
    show l.var < (ck.db.createClause ls).1.nVars
    rw [createClause_nVars]
    rcases (added_live hs ls c).1 hc with hc | rfl
    · have e : ((ck.added ls).db.store c).lits = (ck.db.store c).lits := added_lits_old ls (live_ne_next hs hc)
      exact hs.wf c hc l (by rw [← e]; exact hl)
    · exact hv l (by rw [← added_lits_new ck ls]; exact hl)
  binOk := by
    have hb := hs.binOk.mono (live' := (ck.added ls).live) (store' := (ck.added ls).db.store)
      (fun c hc => (added_live hs ls c).2 (Or.inl hc))
      (fun c hc => added_lits_old ls (live_ne_next hs hc))
    show BinOk _ _ (ck.db.createClause ls).1.bin
    rw [createClause_bin]
    split
    · exact hb.addBin ((added_live hs _ _).2 (Or.inr rfl)) (added_lits_new ck _)
    · exact hb
  wcount := by
    have hb := hs.wcount.mono (live' := (ck.added ls).live) (store' := (ck.added ls).db.store)
      (fun c hc => (added_live hs ls c).2 (Or.inl hc))
      (fun c hc => added_lits_old ls (live_ne_next hs hc))
    clear hv
    match ls, hb with
    | [], hb => exact hb
    | [_], hb => exact hb
    | [_, _], hb => exact hb
    | x :: y :: z :: r, hb =>
      refine WCount.attach (x := x) (y := y) (r := z :: r) (c := ck.db.next) hb
        ((added_live hs _ _).2 (Or.inr rfl)) (added_lits_new ck _) (by simp) ?_
      intro p w hw
      exact live_ne_next hs (hs.wcount.mem p w hw).1
  occ l c hc hl := by
    show c ∈ ck.occ l ++ List.replicate (ls.count l) ck.db.next
    rw [List.mem_append]
    rcases (added_live hs ls c).1 hc with hc | rfl
    · left
      exact hs.occ l c hc (by rw [← added_lits_old ls (live_ne_next hs hc)]; exact hl)
    · right
      rw [added_lits_new] at hl
      simp [List.mem_replicate, List.count_eq_zero, hl]

/-- Changing the flag for the empty clause. -/
theorem Struct.withEmpty {ck : Checker} (h : Struct ck) : Struct { ck with db := ck.db.emptyClause } :=
  ⟨h.tinv, h.nv, h.fresh, h.wf, h.binOk, h.wcount, h.occ⟩

theorem storeClause_eq {ck ck' : Checker} {line : Clause} (h : ck.storeClause line = some ck') :
    (∀ l ∈ seen16 line, l.var < ck.db.nVars) ∧
    ((∃ l, seen16 line = [l] ∧
        ck' = { ck.added [l] with
          T := (ck.T.fact l).1
          db := if (ck.T.fact l).2 then (ck.added [l]).db else (ck.added [l]).db.emptyClause }) ∨
      ((∀ l, seen16 line ≠ [l]) ∧ ck' = ck.added (seen16 line))) := by
  unfold storeClause at h
  dsimp only at h
  generalize seen16 line = ls at h
  by_cases hr : ls.any (fun l => ck.db.nVars ≤ l.var) = true
  · rw [if_pos hr] at h; simp at h
  · rw [if_neg hr] at h
    refine ⟨by simpa using hr, ?_⟩
    match ls, h with
    | [], h =>
      right
      simp only [createClause_id, Option.some.injEq] at h
      exact ⟨by simp, by rw [← h]; rfl⟩
    | [l], h =>
      left
      simp only [createClause_id, Option.some.injEq] at h
      exact ⟨l, rfl, by rw [← h]; rfl⟩
    | [x, y], h =>
      right
      simp only [createClause_id, Option.some.injEq] at h
      exact ⟨by simp, by rw [← h]; rfl⟩
    | x :: y :: z :: r, h =>
      right
      simp only [createClause_id, Option.some.injEq] at h
      exact ⟨by simp, by rw [← h]; rfl⟩

theorem storeClause_defined {ck : Checker} {line : Clause} (h : ∀ l ∈ line, l.var < ck.db.nVars) :
    ∃ ck', ck.storeClause line = some ck' := by
  unfold storeClause
  dsimp only
  have hr : ¬ (seen16 line).any (fun l => ck.db.nVars ≤ l.var) = true := by
    simp only [List.any_eq_true, decide_eq_true_eq, not_exists, not_and]
    intro l hl
    have := h l (List.mem_of_mem_take hl)
    omega
  rw [if_neg hr]
  split <;> exact ⟨_, rfl⟩

theorem added_models {ck : Checker} (hs : Struct ck) {ls : Clause} {a : Assign} (ha : ck.Models a)
    (hc : SatClause a ls) : (ck.added ls).Models a := by
  intro c hl
  rcases (added_live hs ls c).1 hl with hl | rfl
  · obtain ⟨l, h1, h2⟩ := ha c hl
    exact ⟨l, by rw [show ((ck.added ls).db.store c).lits = _ from added_lits_old ls (live_ne_next hs hl)]; exact h1, h2⟩
  · obtain ⟨l, h1, h2⟩ := hc
    exact ⟨l, by rw [show ((ck.added ls).db.store _).lits = _ from added_lits_new ck ls]; exact h1, h2⟩

/-- Storing a clause. -/
theorem storeClause_spec {F : CNF} {ck ck' : Checker} {line : Clause} (hs : Struct ck)
    (hlim : ck.T.lim = []) (hocc : ∀ l c, c ∈ ck.occ l → c ∈ ck.db.clauses)
    (hsem : Satisfiable F → seen16 line = line ∧ ck.db.hasEmpty = false ∧
      (∃ a, ck.Models a ∧ SatClause a line) ∧
      ∀ l ∈ ck.T.stack, ∃ c, ck.live c ∧ ck.db.lits c = [l])
    (h : ck.storeClause line = some ck') : CkInv F ck' := by
  obtain ⟨hv, hcase⟩ := storeClause_eq h
  have hst := added_struct hs hv
  have hoccA : ∀ l c, c ∈ (ck.added (seen16 line)).occ l → c ∈ (ck.added (seen16 line)).db.clauses := by
    intro l c hc
    simp only [added, createClause_clauses, List.mem_append, List.mem_singleton, List.mem_replicate] at hc ⊢
    rcases hc with hc | ⟨_, rfl⟩
    · exact Or.inl (hocc l c hc)
    · exact Or.inr rfl
  have hfactsA : (∀ l ∈ ck.T.stack, ∃ c, ck.live c ∧ ck.db.lits c = [l]) →
      ∀ l ∈ ck.T.stack, ∃ c, (ck.added (seen16 line)).live c ∧ (ck.added (seen16 line)).db.lits c = [l] := by
    intro hf l hl
    obtain ⟨c, hc, hcl⟩ := hf l hl
    exact ⟨c, (added_live hs _ c).2 (Or.inl hc), by rw [added_lits_old _ (live_ne_next hs hc)]; exact hcl⟩
  rcases hcase with ⟨l, hl, rfl⟩ | ⟨hne, rfl⟩
  · rw [hl] at hv hst hoccA hfactsA
    obtain ⟨f1, f2, f3, f4, f5⟩ := fact_inv (p := l) hs.tinv hlim (by rw [hs.nv]; exact hv l (by simp))
    have hst' : Struct { ck.added [l] with T := (ck.T.fact l).1 } := hst.withTrail f1 f2
    refine ⟨?_, f3, ?_, fun hF => ?_⟩
    · cases hflag : (ck.T.fact l).2 with
      | true => exact hst'
      | false => exact hst'.withEmpty
    · intro x c hc
      cases hflag : (ck.T.fact l).2 with
      | true => exact hoccA x c hc
      | false => exact hoccA x c hc
    · obtain ⟨g1, g2, ⟨a, ga, gc⟩, g4⟩ := hsem hF
      rw [← g1, hl] at gc
      have hm : (ck.added [l]).Models a := added_models hs ga gc
      have hflag : (ck.T.fact l).2 = true := by
        cases hflag : (ck.T.fact l).2 with
        | true => rfl
        | false =>
          obtain ⟨c, hc, hcl⟩ := g4 _ (f4 hflag)
          obtain ⟨l', k1, k2⟩ := ga c hc
          rw [show (ck.db.store c).lits = _ from hcl] at k1
          simp at k1; subst k1
          obtain ⟨l'', k3, k4⟩ := gc
          simp at k3; subst k3
          rw [Lit.holds_neg] at k2
          exact (k2 k4).elim
      rw [hflag]
      refine ⟨?_, ⟨a, hm⟩, ?_⟩
      · show (ck.db.createClause [l]).1.hasEmpty = false
        rw [createClause_hasEmpty, g2]; rfl
      · intro x hx
        have hx' : x ∈ ck.T.stack ∨ x = l := by
          rcases f5 with f5 | f5
          · exact Or.inl (f5 ▸ hx)
          · have : x ∈ ck.T.stack ++ [l] := f5 ▸ hx
            simpa using this
        rcases hx' with hx' | rfl
        · exact hfactsA g4 x hx'
        · exact ⟨ck.db.next, (added_live hs _ _).2 (Or.inr rfl), added_lits_new ck _⟩
  · refine ⟨hst, hlim, hoccA, fun hF => ?_⟩
    obtain ⟨g1, g2, ⟨a, ga, gc⟩, g4⟩ := hsem hF
    refine ⟨?_, ⟨a, added_models hs ga (by rw [g1]; exact gc)⟩, hfactsA g4⟩
    show (ck.db.createClause (seen16 line)).1.hasEmpty = false
    rw [createClause_hasEmpty, g2, g1]
    obtain ⟨l, hl, _⟩ := gc
    cases line with
    | nil => simp at hl
    | cons _ _ => rfl

theorem seen16_eq {ls : Clause} (h : ls.length < 65536) : seen16 ls = ls := by
  unfold seen16
  rw [Nat.mod_eq_of_lt h, List.take_length]

/-- An accepted line keeps the invariant. -/
theorem addClause_inv {F : CNF} {ck ck' : Checker} {ls : Clause} (h : CkInv F ck) (hlen : ls.length < 65536)
    (he : ck.addClause ls = some (ck', true)) : CkInv F ck' := by
  unfold addClause at he
  cases h1 : ck.checkAsymm ls none with
  | none => rw [h1] at he; simp at he
  | some x =>
    obtain ⟨ck1, r⟩ := x
    rw [h1] at he
    dsimp only at he
    cases h2 : (if r then some (ck1, true) else ratLoop ck1.T.decisionLevel ls ck1) with
    | none => rw [h2] at he; simp at he
    | some y =>
      obtain ⟨ck2, r2⟩ := y
      rw [h2] at he
      cases r2 with
      | false => simp at he
      | true =>
        dsimp only at he
        cases h3 : storeClause { ck2 with T := ck2.T.backtrack 0 } ls with
        | none => rw [h3] at he; simp at he
        | some ck3 =>
          rw [h3] at he
          simp only [Option.some.injEq, Prod.mk.injEq, and_true] at he
          subst he
          obtain ⟨s1, s2, s3, _⟩ := checkAsymm_spec h.struct h1
          have hk : Struct ck2 ∧ Frame ck1 ck2 ∧ Same ck1.T ck2.T := by
            cases r with
            | true =>
              simp only [if_true, Option.some.injEq, Prod.mk.injEq, and_true] at h2
              subst h2; exact ⟨s1, Frame.refl _, Same.refl _⟩
            | false =>
              obtain ⟨a, b, c, _⟩ := ratLoop_spec ls ck1 _ ck2 true s1 rfl h2
              exact ⟨a, b, c⟩
          obtain ⟨k1, k2, k3⟩ := hk
          have hfr := (s2.trans k2).back (ck2.T.backtrack 0)
          refine storeClause_spec (F := F)
            (k1.withTrail (Trail.backtrack_inv k1.tinv) (Trail.backtrack_nVars)) ?_ ?_ ?_ h3
          · show (ck2.T.backtrack 0).lim = []
            cases hl : ck2.T.lim[0]? with
            | none =>
              rw [Trail.backtrack_none hl]
              simpa using hl
            | some k => rw [Trail.backtrack_lim hl]; simp
          · intro l c hc
            rw [hfr.occ] at hc
            rw [hfr.db]
            exact h.occIn l c hc
          · intro hF
            obtain ⟨g1, ⟨a, ga⟩, g3⟩ := h.sem hF
            obtain ⟨⟨a', m1, m2⟩, hstk⟩ := accepted_model h.struct g1 h.lim g3 h1 h2 ga
            refine ⟨seen16_eq hlen, by rw [hfr.hasEmpty]; exact g1, ⟨a', (hfr.models a').2 m1, m2⟩, ?_⟩
            intro l hl
            rw [show ({ ck2 with T := ck2.T.backtrack 0 } : Checker).T.stack = _ from hstk] at hl
            obtain ⟨c, hc, hcl⟩ := g3 l hl
            refine ⟨c, (hfr.live c).2 hc, ?_⟩
            have := (hfr.store c).1
            rw [show (ck.db.store c).lits = _ from hcl] at this
            exact this.eq_singleton

theorem addClause_defined {F : CNF} {ck : Checker} {ls : Clause} (h : CkInv F ck)
    (hv : ∀ l ∈ ls, l.var < ck.db.nVars) : ∃ x, ck.addClause ls = some x := by
  unfold addClause
  obtain ⟨⟨ck1, r⟩, h1⟩ := checkAsymm_defined (ls := ls) (pivot := none) h.struct hv
  rw [h1]
  dsimp only
  obtain ⟨s1, s2, s3, _⟩ := checkAsymm_spec h.struct h1
  have : ∃ y, (if r then some (ck1, true) else ratLoop ck1.T.decisionLevel ls ck1) = some y ∧
      y.1.db.nVars = ck.db.nVars := by
    cases r with
    | true => exact ⟨_, rfl, s2.nVars⟩
    | false =>
      obtain ⟨⟨ck2, r2⟩, h2⟩ := ratLoop_defined ls ck1 ck1.T.decisionLevel s1 rfl
        (by intro l c hc; rw [s2.occ] at hc; rw [s2.db]; exact h.occIn l c hc)
        (by intro l hl; rw [s2.nVars]; exact hv l hl)
      obtain ⟨_, k2, _⟩ := ratLoop_spec ls ck1 _ ck2 r2 s1 rfl h2
      exact ⟨_, h2, k2.nVars.trans s2.nVars⟩
  obtain ⟨⟨ck2, r2⟩, h2, hnv⟩ := this
  rw [h2]
  cases r2 with
  | false => exact ⟨_, rfl⟩
  | true =>
    dsimp only
    obtain ⟨ck3, h3⟩ := storeClause_defined (ck := { ck2 with T := ck2.T.backtrack 0 }) (line := ls)
      (by intro l hl; show l.var < ck2.db.nVars; rw [hnv]; exact hv l hl)
    rw [h3]
    exact ⟨_, rfl⟩

end Checker
end Candy
