import Verif.Proofs.DratInv
import Verif.Proofs.Solve

/-! The proof checker: deletion, construction, whole proofs. -/

namespace Candy
namespace Checker

variable {F : CNF}

theorem removeClause_bin_out {db : DB} {c : Nat} {live : Nat → Prop} (hb : BinOk live db.store db.bin)
    {p : Lit} {w : Watcher} (hw : w ∈ (db.removeClause c).bin p) : w ∈ db.bin p ∧ w.cref ≠ c := by
  refine ⟨removeClause_bin_sub _ _ hw, fun he => ?_⟩
  obtain ⟨_, hl⟩ := hb p w (removeClause_bin_sub _ _ hw)
  rw [he] at hl
  have hl : db.lits c = [p.neg, w.blocker] ∨ db.lits c = [w.blocker, p.neg] := hl
  unfold DB.removeClause at hw
  rcases hl with hl | hl
  · simp only [hl, Lit.neg_neg, true_or, if_true, List.mem_filter] at hw
    simp [he] at hw
  · simp only [hl, Lit.neg_neg, or_true, if_true, List.mem_filter] at hw
    simp [he] at hw

/-- Marking a clause as deleted and detaching it. -/
def dropped (ck : Checker) (c : Nat) : Checker :=
  { ck with db := ck.db.removeClause c, watch := detach (ck.db.removeClause c).store ck.watch c,
            numDeleted := ck.numDeleted + 1 }

theorem dropped_lits (ck : Checker) (c d : Nat) : (ck.dropped c).db.lits d = ck.db.lits d :=
  removeClause_lits ..

theorem dropped_live (ck : Checker) (c d : Nat) : (ck.dropped c).live d ↔ ck.live d ∧ d ≠ c := by
  unfold live dropped
  simp only [removeClause_clauses, removeClause_store]
  by_cases hd : d = c
  · subst hd; simp [Cls.isDeleted, Cls.deletedWeight]
  · simp [upd_ne _ _ hd, hd]

theorem detach_sublist (store : Nat → Cls) (watch : Lit → List Watcher) (c : Nat) (p : Lit) :
    (detach store watch c p).Sublist (watch p) := by
  unfold detach
  generalize (store c).lits = ls
  match ls with
  | [] => exact List.Sublist.refl _
  | [_] => exact List.Sublist.refl _
  | [_, _] => exact List.Sublist.refl _
  | x :: y :: z :: r =>
    dsimp only
    split
    · exact List.filter_sublist
    · exact List.Sublist.refl _

theorem detach_out {live : Nat → Prop} {store : Nat → Cls} {watch : Lit → List Watcher} {c : Nat}
    (h : WCount live store watch) {p : Lit} {w : Watcher} (hw : w ∈ detach store watch c p) : w.cref ≠ c := by
  intro he
  obtain ⟨_, x, y, r, hl, hr⟩ := h.mem p w ((detach_sublist ..).subset hw)
  rw [he] at hl
  obtain ⟨z, r', rfl⟩ := List.exists_cons_of_ne_nil hr
  have hmem := (detach_sublist ..).subset hw
  unfold detach at hw
  simp only [hl] at hw
  split at hw
  · simp [he] at hw
  · rename_i hn
    have := h.cnt p c x y (z :: r') hl
    have hs : watchSlots x y p = 0 := by
      unfold watchSlots
      rw [if_neg (fun h => hn (Or.inl h.symm)), if_neg (fun h => hn (Or.inr h.symm))]
    rw [hs] at this
    have h0 : (watch p).countP (fun w => w.cref == c) = 0 := by omega
    rw [List.countP_eq_zero] at h0
    exact h0 w hmem (by simpa using he)

theorem dropped_struct {ck : Checker} (hs : Struct ck) (c : Nat) : Struct (ck.dropped c) where
  tinv := hs.tinv
  nv := by show ck.T.nVars = (ck.db.removeClause c).nVars; rw [removeClause_nVars]; exact hs.nv
  fresh d hd := by
    simp only [dropped, removeClause_clauses, removeClause_next] at hd ⊢
    exact hs.fresh d hd
  wf d hd l hl := by
    show l.var < (ck.db.removeClause c).nVars
    rw [removeClause_nVars]
    have e : ((ck.dropped c).db.store d).lits = (ck.db.store d).lits := dropped_lits ck c d
    exact hs.wf d ((dropped_live ck c d).1 hd).1 l (by rw [← e]; exact hl)
  binOk p w hw := by
    obtain ⟨h1, h2⟩ := removeClause_bin_out hs.binOk hw
    obtain ⟨h3, h4⟩ := hs.binOk p w h1
    have e : ((ck.dropped c).db.store w.cref).lits = (ck.db.store w.cref).lits := dropped_lits ck c _
    exact ⟨(dropped_live ck c _).2 ⟨h3, h2⟩, by rw [e]; exact h4⟩
  wcount := by
    have hst : ∀ d, ((ck.dropped c).db.store d).lits = (ck.db.store d).lits := dropped_lits ck c
    have h0 : WCount ck.live (ck.dropped c).db.store ck.watch := hs.wcount.mono (fun _ h => h) (fun d _ => hst d)
    refine h0.sub (fun p => detach_sublist ..) (fun p w hw => ?_) (fun _ => rfl)
    exact (dropped_live ck c _).2 ⟨(h0.mem p w ((detach_sublist ..).subset hw)).1, detach_out h0 hw⟩
  occ l d hd hl := hs.occ l d ((dropped_live ck c d).1 hd).1 (by rw [← dropped_lits ck c d]; exact hl)

theorem dropped_inv {ck : Checker} (h : CkInv F ck) {c : Nat} (hc : (ck.db.lits c).length ≠ 1) :
    CkInv F (ck.dropped c) where
  struct := dropped_struct h.struct c
  lim := h.lim
  occIn l d hd := by
    show d ∈ (ck.db.removeClause c).clauses
    rw [removeClause_clauses]; exact h.occIn l d hd
  sem hF := by
    obtain ⟨g1, ⟨a, ga⟩, g3⟩ := h.sem hF
    refine ⟨by show (ck.db.removeClause c).hasEmpty = false; rw [removeClause_hasEmpty]; exact g1, ⟨a, ?_⟩, ?_⟩
    · intro d hd
      have e : ((ck.dropped c).db.store d).lits = (ck.db.store d).lits := dropped_lits ck c d
      rw [e]; exact ga d ((dropped_live ck c d).1 hd).1
    · intro l hl
      obtain ⟨d, h1, h2⟩ := g3 l hl
      refine ⟨d, (dropped_live ck c d).2 ⟨h1, ?_⟩, by rw [dropped_lits]; exact h2⟩
      rintro rfl
      rw [h2] at hc; simp at hc

theorem mem_occOf {db : DB} {l : Lit} {c : Nat} : c ∈ occOf db l ↔ c ∈ db.clauses ∧ l ∈ db.lits c := by
  unfold occOf
  simp only [List.mem_flatMap, List.mem_replicate]
  constructor
  · rintro ⟨d, h1, h2, rfl⟩
    exact ⟨h1, Classical.byContradiction fun hn => h2 (List.count_eq_zero.2 hn)⟩
  · rintro ⟨h1, h2⟩
    exact ⟨c, h1, fun h0 => List.count_eq_zero.1 h0 h2, rfl⟩

/-- A checker whose data structures have been built anew. -/
theorem rebuilt_struct {ck : Checker} (ht : ck.T.Inv) (hn : ck.T.nVars = ck.db.nVars)
    (hc : ck.db.clauses = List.range ck.db.next)
    (hd : ∀ c < ck.db.next, (ck.db.store c).isDeleted = false)
    (hv : ∀ c < ck.db.next, ∀ l ∈ ck.db.lits c, l.var < ck.db.nVars)
    (hb : BinOk (fun c => c < ck.db.next) ck.db.store ck.db.bin)
    (hw : ck.watch = resetWatch ck.db) (ho : ck.occ = occOf ck.db) : Struct ck := by
  have hlive : ∀ c, c < ck.db.next ↔ ck.live c := by
    intro c
    unfold live
    rw [hc, List.mem_range]
    exact ⟨fun h => ⟨h, hd c h⟩, fun h => h.1⟩
  refine ⟨ht, hn, ?_, ?_, ?_, ?_, ?_⟩
  · intro c h; rw [hc, List.mem_range] at h; exact h
  · intro c h l hl; exact hv c ((hlive c).2 h) l hl
  · exact hb.mono (fun c h => (hlive c).1 h) (fun _ _ => rfl)
  · rw [hw]
    unfold resetWatch
    refine attachAll_wcount _ _ (by rw [hc]; exact List.nodup_range) ?_ WCount.nil (by simp)
    intro c h; rw [hc, List.mem_range] at h; exact (hlive c).1 h
  · intro l c h hl
    rw [ho, mem_occOf]
    exact ⟨h.1, hl⟩

theorem cleanup_live {ck : Checker} (i : Nat) : ck.cleanup.live i → ∃ c, ck.live c ∧
    ck.cleanup.db.lits i = ck.db.lits c := by
  intro h
  have h1 : i ∈ ck.db.reorganize.clauses := h.1
  rw [reorganize_clauses, List.mem_range] at h1
  have hget : ck.db.collect[i]? = some (ck.db.collect[i]) := List.getElem?_eq_getElem h1
  have hm := List.getElem_mem h1
  rw [mem_collect] at hm
  exact ⟨_, hm, by show (ck.db.reorganize.store i).lits = _; rw [reorganize_store hget]⟩

theorem cleanup_keeps {ck : Checker} {c : Nat} (h : ck.live c) : ∃ i, ck.cleanup.live i ∧
    ck.cleanup.db.lits i = ck.db.lits c := by
  have hm : c ∈ ck.db.collect := mem_collect.2 h
  obtain ⟨i, hi, rfl⟩ := List.getElem_of_mem hm
  have hget : ck.db.collect[i]? = some (ck.db.collect[i]) := List.getElem?_eq_getElem hi
  refine ⟨i, ⟨?_, ?_⟩, ?_⟩
  · show i ∈ ck.db.reorganize.clauses
    rw [reorganize_clauses, List.mem_range]; exact hi
  · show (ck.db.reorganize.store i).isDeleted = false
    rw [reorganize_store hget]; exact h.2
  · show (ck.db.reorganize.store i).lits = _
    rw [reorganize_store hget]

theorem cleanup_inv {ck : Checker} (h : CkInv F ck) : CkInv F ck.cleanup := by
  have hst : Struct ck.cleanup := by
    refine rebuilt_struct h.struct.tinv h.struct.nv rfl ?_ ?_ ?_ rfl rfl
    · intro i hi
      have hi : i < ck.db.collect.length := hi
      have hm := List.getElem_mem hi
      rw [mem_collect] at hm
      show (ck.db.reorganize.store i).isDeleted = false
      rw [reorganize_store (List.getElem?_eq_getElem hi)]; exact hm.2
    · intro i hi l hl
      have hi : i < ck.db.collect.length := hi
      have hm := List.getElem_mem hi
      rw [mem_collect] at hm
      refine h.struct.wf _ hm l ?_
      have hl : l ∈ (ck.db.reorganize.store i).lits := hl
      rw [reorganize_store (List.getElem?_eq_getElem hi)] at hl; exact hl
    · show BinOk (fun c => c < ck.db.collect.length) _ ck.db.reorganize.bin
      unfold cleanup DB.reorganize
      exact reinitBin_ok (fun c hc => List.mem_range.1 hc)
  refine ⟨hst, h.lim, ?_, ?_⟩
  · intro l c hc
    exact (mem_occOf.1 hc).1
  · intro hF
    obtain ⟨g1, ⟨a, ga⟩, g3⟩ := h.sem hF
    refine ⟨g1, ⟨a, ?_⟩, ?_⟩
    · intro i hi
      obtain ⟨c, hc, he⟩ := cleanup_live i hi
      have := ga c hc
      rw [show (ck.db.store c).lits = ck.cleanup.db.lits i from he.symm] at this
      exact this
    · intro l hl
      obtain ⟨c, hc, hcl⟩ := g3 l hl
      obtain ⟨i, hi, he⟩ := cleanup_keeps hc
      exact ⟨i, hi, by rw [he, hcl]⟩

theorem removeClause_inv {ck ck' : Checker} {ls : Clause} (h : CkInv F ck)
    (he : ck.removeClause ls = some ck') : CkInv F ck' := by
  unfold removeClause at he
  match ls, he with
  | [], he => simp at he; subst he; exact h
  | [_], he => simp at he; subst he; exact h
  | l :: m :: r, he =>
    dsimp only at he
    split at he
    · simp at he
    · cases hf : (ck.occ l).find? (ck.matchesLine (l :: m :: r)) with
      | none => rw [hf] at he; simp at he; subst he; exact h
      | some c =>
        rw [hf] at he
        simp only [Option.some.injEq] at he
        have hm := List.find?_some hf
        have hlen : (ck.db.lits c).length ≠ 1 := by
          unfold matchesLine at hm
          simp only [Bool.and_eq_true, beq_iff_eq, List.length_cons] at hm
          omega
        have hd := dropped_inv h hlen
        subst he
        split
        · exact cleanup_inv hd
        · exact hd

theorem removeClause_defined {ck : Checker} {ls : Clause} (hv : ∀ l ∈ ls, l.var < ck.db.nVars) :
    ∃ ck', ck.removeClause ls = some ck' := by
  unfold removeClause
  match ls with
  | [] => exact ⟨_, rfl⟩
  | [_] => exact ⟨_, rfl⟩
  | l :: m :: r =>
    have := hv l (by simp)
    dsimp only
    rw [if_neg (by omega)]
    split <;> exact ⟨_, rfl⟩

theorem storeClause_nVars {ck ck' : Checker} {ls : Clause} (h : ck.storeClause ls = some ck') :
    ck'.db.nVars = ck.db.nVars := by
  obtain ⟨_, h | h⟩ := storeClause_eq h
  · obtain ⟨l, _, rfl⟩ := h
    show (if _ then _ else _ : DB).nVars = _
    split
    · show (ck.db.createClause [l]).1.nVars = _; simp
    · show (ck.db.createClause [l]).1.nVars = _; simp
  · obtain ⟨_, rfl⟩ := h
    show (ck.db.createClause _).1.nVars = _; simp

theorem addClause_nVars {ck ck' : Checker} {ls : Clause} {r : Bool} (hs : Struct ck)
    (he : ck.addClause ls = some (ck', r)) : ck'.db.nVars = ck.db.nVars := by
  unfold addClause at he
  cases h1 : ck.checkAsymm ls none with
  | none => rw [h1] at he; simp at he
  | some x =>
    obtain ⟨ck1, r1⟩ := x
    rw [h1] at he
    dsimp only at he
    obtain ⟨s1, s2, s3, _⟩ := checkAsymm_spec hs h1
    cases h2 : (if r1 then some (ck1, true) else ratLoop ck1.T.decisionLevel ls ck1) with
    | none => rw [h2] at he; simp at he
    | some y =>
      obtain ⟨ck2, r2⟩ := y
      rw [h2] at he
      have hn : ck2.db.nVars = ck.db.nVars := by
        cases r1 with
        | true =>
          simp only [if_true, Option.some.injEq, Prod.mk.injEq] at h2
          rw [← h2.1]; exact s2.nVars
        | false =>
          obtain ⟨_, k2, _⟩ := ratLoop_spec ls ck1 _ ck2 r2 s1 rfl h2
          exact k2.nVars.trans s2.nVars
      cases r2 with
      | false => simp at he; rw [← he.1]; exact hn
      | true =>
        dsimp only at he
        cases h3 : storeClause { ck2 with T := ck2.T.backtrack 0 } ls with
        | none => rw [h3] at he; simp at he
        | some ck3 =>
          rw [h3] at he
          simp only [Option.some.injEq, Prod.mk.injEq] at he
          rw [← he.1, storeClause_nVars h3]; exact hn

theorem removeClause_nVars' {ck ck' : Checker} {ls : Clause} (he : ck.removeClause ls = some ck') :
    ck'.db.nVars = ck.db.nVars := by
  unfold removeClause at he
  match ls, he with
  | [], he => simp at he; rw [he]
  | [_], he => simp at he; rw [he]
  | l :: m :: r, he =>
    dsimp only at he
    split at he
    · simp at he
    · split at he
      · simp at he; rw [he]
      · simp only [Option.some.injEq] at he
        subst he
        split
        · show (ck.db.removeClause _).nVars = _; simp
        · show (ck.db.removeClause _).nVars = _; simp

/-- The literals of a line. -/
def _root_.Candy.DLine.lits : DLine → Clause
  | .add c => c
  | .del c => c

theorem line_inv {ck ck' : Checker} {d : DLine} (h : CkInv F ck) (hl : d.lits.length < 65536)
    (he : ck.line d = some (ck', true)) : CkInv F ck' := by
  cases d with
  | add c => exact addClause_inv h hl he
  | del c =>
    simp only [line, Option.map_eq_some_iff, Prod.mk.injEq, and_true] at he
    obtain ⟨x, hx, rfl⟩ := he
    exact removeClause_inv h hx

theorem line_defined {ck : Checker} {d : DLine} (h : CkInv F ck) (hv : ∀ l ∈ d.lits, l.var < ck.db.nVars) :
    ∃ ck' r, ck.line d = some (ck', r) ∧ ck'.db.nVars = ck.db.nVars := by
  cases d with
  | add c =>
    obtain ⟨⟨ck', r⟩, hx⟩ := addClause_defined h hv
    exact ⟨ck', r, hx, addClause_nVars h.struct hx⟩
  | del c =>
    obtain ⟨x, hx⟩ := removeClause_defined (ck := ck) hv
    exact ⟨x, true, by simp only [line]; rw [show ck.removeClause c = some x from hx]; rfl, removeClause_nVars' hx⟩

theorem runLines_sound : ∀ (ds : List DLine) (ck : Checker), CkInv F ck →
    (∀ d ∈ ds, d.lits.length < 65536) → runLines ds ck = some true → ¬ Satisfiable F
  | [], ck, h, _, he => by
    simp only [runLines, Option.some.injEq] at he
    intro hF
    have := (h.sem hF).1
    rw [he] at this; simp at this
  | d :: ds, ck, h, hl, he => by
    unfold runLines at he
    cases hx : ck.line d with
    | none => rw [hx] at he; simp at he
    | some x =>
      obtain ⟨ck', r⟩ := x
      rw [hx] at he
      cases r with
      | false => simp at he
      | true =>
        exact runLines_sound ds ck' (line_inv h (hl d (by simp)) hx) (fun e he => hl e (by simp [he])) he

theorem runLines_defined : ∀ (ds : List DLine) (ck : Checker), CkInv F ck →
    (∀ d ∈ ds, d.lits.length < 65536 ∧ ∀ l ∈ d.lits, l.var < ck.db.nVars) → ∃ b, runLines ds ck = some b
  | [], ck, _, _ => ⟨_, rfl⟩
  | d :: ds, ck, h, hv => by
    unfold runLines
    obtain ⟨ck', r, hx, hn⟩ := line_defined h (hv d (by simp)).2
    rw [hx]
    cases r with
    | false => exact ⟨_, rfl⟩
    | true =>
      refine runLines_defined ds ck' (line_inv h (hv d (by simp)).1 hx) ?_
      rw [hn]
      exact fun e he => hv e (by simp [he])

/-! ### The constructor -/

structure InitOk (nv : Nat) (G : CNF) (db : DB) : Prop where
  nVars : db.nVars = nv
  next : db.next = G.length
  clauses : db.clauses = List.range G.length
  del : ∀ c < G.length, (db.store c).isDeleted = false
  lits : ∀ c < G.length, db.lits c ∈ G
  hasEmpty : db.hasEmpty = G.any List.isEmpty
  bin : BinOk (fun c => c < G.length) db.store db.bin

theorem InitOk.create {nv : Nat} {G : CNF} {db : DB} (h : InitOk nv G db) (c : Clause) :
    InitOk nv (G ++ [c]) (db.createClause c 0 true).1 where
  nVars := by rw [createClause_nVars]; exact h.nVars
  next := by rw [createClause_next, h.next]; simp
  clauses := by rw [createClause_clauses, h.clauses, h.next]; simp [List.range_succ]
  del d hd := by
    rw [createClause_store, h.next]
    by_cases he : d = G.length
    · subst he; simp [Cls.isDeleted, Cls.deletedWeight]
    · rw [upd_ne _ _ he]; exact h.del d (by simp at hd; omega)
  lits d hd := by
    unfold DB.lits
    rw [createClause_store, h.next]
    by_cases he : d = G.length
    · subst he; simp
    · rw [upd_ne _ _ he]
      exact List.mem_append_left _ (h.lits d (by simp at hd; omega))
  hasEmpty := by rw [createClause_hasEmpty, h.hasEmpty]; simp
  bin := by
    have hb := h.bin.mono (live' := fun d => d < (G ++ [c]).length) (store' := (db.createClause c 0 true).1.store)
      (fun d hd => by simp; omega)
      (fun d hd => by rw [createClause_store, h.next, upd_ne _ _ (by omega)])
    rw [createClause_bin]
    split
    · exact hb.addBin (by simp [h.next]) (by rw [createClause_store]; simp)
    · exact hb

theorem init_ok (nv : Nat) (G : CNF) : InitOk nv G (DB.new.init nv G) := by
  unfold DB.init
  have h0 : InitOk nv [] (if DB.new.nVars < nv then { DB.new with nVars := nv } else DB.new) := by
    have hn : (if DB.new.nVars < nv then { DB.new with nVars := nv } else DB.new) = { DB.new with nVars := nv } := by
      split
      · rfl
      · rename_i h
        have : nv = 0 := by simp [DB.new] at h; exact h
        subst this; rfl
    rw [hn]
    exact ⟨rfl, rfl, rfl, by simp, by simp, rfl, by intro p w hw; simp [DB.new] at hw⟩
  suffices ∀ (H G : CNF) (db : DB), InitOk nv H db →
      InitOk nv (H ++ G) (G.foldl (fun d c => (d.createClause c (if true then 0 else c.length) true).1) db) from
    this [] G _ h0
  intro H G
  induction G generalizing H with
  | nil => intro db h; simpa using h
  | cons c G ih =>
    intro db h
    have := ih (H ++ [c]) _ (h.create c)
    simpa using this

theorem facts_ok {db : DB} : ∀ (cs : List Nat) (T : Trail), T.Inv → T.lim = [] → T.nVars = db.nVars →
    (∀ c ∈ cs, ∀ l ∈ db.lits c, l.var < db.nVars) →
    (cs.foldl (factOf db) T).Inv ∧ (cs.foldl (factOf db) T).lim = [] ∧
    (cs.foldl (factOf db) T).nVars = db.nVars ∧
    ∀ l ∈ (cs.foldl (factOf db) T).stack, l ∈ T.stack ∨ ∃ c ∈ cs, db.lits c = [l]
  | [], T, h1, h2, h3, _ => ⟨h1, h2, h3, fun l hl => Or.inl hl⟩
  | c :: cs, T, h1, h2, h3, hv => by
    rw [List.foldl_cons]
    have hstep : (factOf db T c).Inv ∧ (factOf db T c).lim = [] ∧ (factOf db T c).nVars = db.nVars ∧
        ∀ l ∈ (factOf db T c).stack, l ∈ T.stack ∨ db.lits c = [l] := by
      unfold factOf
      split
      · rename_i l heq
        obtain ⟨f1, f2, f3, _, f5⟩ := fact_inv (p := l) h1 h2
          (by rw [h3]; exact hv c (by simp) l (by rw [heq]; simp))
        refine ⟨f1, f3, f2.trans h3, fun x hx => ?_⟩
        rcases f5 with f5 | f5
        · exact Or.inl (f5 ▸ hx)
        · have : x ∈ T.stack ++ [l] := f5 ▸ hx
          rw [List.mem_append, List.mem_singleton] at this
          rcases this with h | rfl
          · exact Or.inl h
          · exact Or.inr heq
      · exact ⟨h1, h2, h3, fun l hl => Or.inl hl⟩
    obtain ⟨k1, k2, k3, k4⟩ := hstep
    obtain ⟨m1, m2, m3, m4⟩ := facts_ok cs _ k1 k2 k3 (fun d hd => hv d (by simp [hd]))
    refine ⟨m1, m2, m3, fun l hl => ?_⟩
    rcases m4 l hl with h | ⟨d, hd, he⟩
    · rcases k4 l h with h | h
      · exact Or.inl h
      · exact Or.inr ⟨c, by simp, h⟩
    · exact Or.inr ⟨d, by simp [hd], he⟩

theorem map_seen16 (hl : ∀ c ∈ F, c.length < 65536) : F.map seen16 = F := by
  conv => rhs; rw [← List.map_id F]
  exact List.map_congr_left fun c hc => seen16_eq (hl c hc)

theorem new_nVars (nv : Nat) (F : CNF) : (new nv F).db.nVars = nv := (init_ok nv _).nVars

theorem new_inv {nv : Nat} (hl : ∀ c ∈ F, c.length < 65536) (hv : ∀ c ∈ F, ∀ l ∈ c, l.var < nv) :
    CkInv F (new nv F) := by
  have hi := init_ok nv (F.map seen16)
  rw [map_seen16 hl] at hi
  have hnew : new nv F = { db := DB.new.init nv F
                           T := (DB.new.init nv F).clauses.foldl (factOf (DB.new.init nv F)) ((Trail.empty 0).init (DB.new.init nv F).nVars)
                           watch := resetWatch (DB.new.init nv F)
                           occ := occOf (DB.new.init nv F)
                           numDeleted := 0 } := by
    unfold new; rw [map_seen16 hl]
  rw [hnew]
  generalize DB.new.init nv F = db at hi
  have hvl : ∀ c < F.length, ∀ l ∈ db.lits c, l.var < db.nVars := by
    intro c hc l hl'
    rw [hi.nVars]
    exact hv _ (hi.lits c hc) l hl'
  have hT0 : ((Trail.empty 0).init db.nVars).Inv ∧ ((Trail.empty 0).init db.nVars).lim = [] ∧
      ((Trail.empty 0).init db.nVars).nVars = db.nVars ∧ ((Trail.empty 0).init db.nVars).stack = [] := by
    unfold Trail.init
    split
    · exact ⟨Trail.empty_inv db.nVars, rfl, rfl, rfl⟩
    · rename_i h
      have : db.nVars = 0 := by simp [Trail.empty] at h; omega
      rw [this]
      exact ⟨Trail.empty_inv 0, rfl, rfl, rfl⟩
  obtain ⟨t1, t2, t3, t4⟩ := facts_ok db.clauses _ hT0.1 hT0.2.1 hT0.2.2.1
    (fun c hc => hvl c (by rw [hi.clauses, List.mem_range] at hc; exact hc))
  rw [hT0.2.2.2] at t4
  refine ⟨rebuilt_struct t1 t3 ?_ ?_ ?_ ?_ rfl rfl, t2, fun l c hc => (mem_occOf.1 hc).1, ?_⟩
  · show db.clauses = List.range db.next
    rw [hi.clauses, hi.next]
  · intro c hc
    exact hi.del c (by have := hi.next; have : c < db.next := hc; omega)
  · intro c hc
    exact hvl c (by have := hi.next; have : c < db.next := hc; omega)
  · show BinOk (fun c => c < db.next) db.store db.bin
    rw [hi.next]; exact hi.bin
  · rintro ⟨a, ha⟩
    refine ⟨?_, ⟨a, ?_⟩, ?_⟩
    · show db.hasEmpty = false
      rw [hi.hasEmpty, List.any_eq_false]
      intro c hc he
      obtain ⟨l, hl', _⟩ := ha c hc
      cases c with
      | nil => simp at hl'
      | cons _ _ => simp at he
    · intro c hc
      have hc1 : c ∈ db.clauses := hc.1
      rw [hi.clauses, List.mem_range] at hc1
      exact ha _ (hi.lits c hc1)
    · intro l hl'
      rcases t4 l hl' with h | ⟨c, hc, he⟩
      · simp at h
      · refine ⟨c, ⟨hc, ?_⟩, he⟩
        rw [hi.clauses, List.mem_range] at hc
        exact hi.del c hc

end Checker

/-! ### The file -/

section Reader
variable {σ : Type} (S : Stream σ)

theorem _root_.Candy.Out.bind_ok {α β : Type} {x : Out α} {f : α → Out β} {b : β} (h : x.bind f = .ok b) :
    ∃ a, x = .ok a ∧ f a = .ok b := by
  cases x with
  | ok a => exact ⟨a, rfl, h⟩
  | _ => simp [Out.bind] at h

theorem checkLoop_lines (m : Nat) : ∀ (n : Nat) (s : σ) (ck : Checker), checkLoop S m n s ck = .ok true →
    ∃ ds, readLines S m n s = .ok ds ∧ Checker.runLines ds ck = some true
  | 0, s, ck, h => by simp [checkLoop] at h
  | n + 1, s, ck, h => by
    unfold checkLoop at h
    unfold readLines
    by_cases he : S.eof s = true
    · rw [if_pos he] at h ⊢
      simp only [Out.ok.injEq] at h
      exact ⟨[], rfl, by rw [Checker.runLines, h]⟩
    · rw [if_neg he] at h ⊢
      obtain ⟨⟨o, s1⟩, h1, h2⟩ := Out.bind_ok h
      rw [h1]
      cases o with
      | none =>
        obtain ⟨s2, h3, h4⟩ := Out.bind_ok h2
        obtain ⟨ds, h5, h6⟩ := checkLoop_lines m n s2 ck h4
        exact ⟨ds, by simp only [Out.bind, h3, h5], h6⟩
      | some d =>
        dsimp only at h2
        cases hx : ck.line d with
        | none => rw [hx] at h2; simp at h2
        | some x =>
          obtain ⟨ck', r⟩ := x
          rw [hx] at h2
          cases r with
          | false => simp at h2
          | true =>
            obtain ⟨s2, h3, h4⟩ := Out.bind_ok h2
            obtain ⟨ds, h5, h6⟩ := checkLoop_lines m n s2 ck' h4
            exact ⟨d :: ds, by simp only [Out.bind, h3, h5], by rw [Checker.runLines, hx]; exact h6⟩

end Reader
end Candy
