import Verif.Proofs.DratProp
import Verif.Proofs.Database

/-! Invariant of the proof checker and soundness of its steps. -/

namespace Candy

/-- `T'` arises from `T` by decisions and propagation: if a level was opened, the first one was opened on
the stack of `T`. -/
structure Above (T T' : Trail) : Prop where
  inv : T'.Inv
  nVars : T'.nVars = T.nVars
  ext : ∃ suf lsuf, T'.stack = T.stack ++ suf ∧ T'.lim = T.lim ++ lsuf ∧
    (lsuf = [] ∨ ∃ rest, lsuf = T.stack.length :: rest)

theorem Above.refl {T : Trail} (h : T.Inv) : Above T T :=
  ⟨h, rfl, [], [], by simp, by simp, Or.inl rfl⟩

/-- Backtracking restores the stack, or there was no level to remove. -/
theorem Above.back {T T' : Trail} (h : Above T T') :
    (T'.backtrack T.lim.length).Inv ∧ (T'.backtrack T.lim.length).nVars = T.nVars ∧
    (T'.backtrack T.lim.length).lim = T.lim ∧
    ((T'.backtrack T.lim.length).stack = T.stack ∨
      T'.lim = T.lim ∧ T'.backtrack T.lim.length = T') := by
  obtain ⟨suf, lsuf, h1, h2, h3⟩ := h.ext
  refine ⟨Trail.backtrack_inv h.inv, by rw [Trail.backtrack_nVars, h.nVars], ?_⟩
  rcases h3 with rfl | ⟨rest, rfl⟩
  · have hl : T'.lim = T.lim := by simpa using h2
    have hk : T'.lim[T.lim.length]? = none := by rw [hl]; simp
    rw [Trail.backtrack_none hk]
    exact ⟨hl, Or.inr ⟨hl, rfl⟩⟩
  · have hk : T'.lim[T.lim.length]? = some T.stack.length := by rw [h2]; simp
    rw [Trail.backtrack_lim hk, Trail.backtrack_stack hk, h1, h2]
    simp

/-- The loop of `check_asymm`. -/
theorem asymAssume_spec {nv : Nat} {pivot : Option Lit} :
    ∀ (ls : List Lit) (T : Trail), T.Inv → T.nVars = nv → ∀ T' b,
      Checker.asymAssume nv pivot ls T = some (T', b) →
      Above T T' ∧ (T'.lim = T.lim → T' = T) ∧
      (T'.lim = T.lim → b = false → ∀ l ∈ ls, pivot ≠ some l → l.neg ∈ T.stack) ∧
      (∀ a, SatStack T a → (∀ l ∈ ls, pivot ≠ some l → l.neg.holds a) → b = false ∧ SatStack T' a)
  | [], T, hT, hn, T', b, h => by
    simp only [Checker.asymAssume, Option.some.injEq, Prod.mk.injEq] at h
    obtain ⟨rfl, rfl⟩ := h
    exact ⟨Above.refl hT, fun _ => rfl, by simp, fun a h _ => ⟨rfl, h⟩⟩
  | l :: ls, T, hT, hn, T', b, h => by
    rw [Checker.asymAssume] at h
    by_cases hp : pivot = some l
    · rw [if_pos hp] at h
      obtain ⟨h1, h2, h3, h4⟩ := asymAssume_spec ls T hT hn T' b h
      refine ⟨h1, h2, fun hl hb x hx hpx => ?_, fun a hs ha => h4 a hs fun x hx => ha x (by simp [hx])⟩
      rcases List.mem_cons.1 hx with rfl | hx
      · exact (hpx hp).elim
      · exact h3 hl hb x hx hpx
    · rw [if_neg hp] at h
      by_cases hr : nv ≤ l.var
      · rw [if_pos hr] at h; simp at h
      · rw [if_neg hr] at h
        by_cases hf : T.falsifies l.neg = true
        · rw [if_pos hf] at h
          simp only [Option.some.injEq, Prod.mk.injEq] at h
          obtain ⟨rfl, rfl⟩ := h
          refine ⟨Above.refl hT, fun _ => rfl, by simp, fun a hs ha => ?_⟩
          have hm : l ∈ T.stack := by
            have : T.value l.neg = some false := by simpa [Trail.falsifies] using hf
            simpa using (hT.valFalse _).1 this
          have h1 := ha l (by simp) hp
          rw [Lit.holds_neg] at h1
          exact (h1 (hs l hm)).elim
        · rw [if_neg hf] at h
          by_cases hs : T.satisfies l.neg = true
          · rw [if_pos hs] at h
            obtain ⟨h1, h2, h3, h4⟩ := asymAssume_spec ls T hT hn T' b h
            refine ⟨h1, h2, fun hl hb x hx hpx => ?_,
              fun a hs ha => h4 a hs fun x hx => ha x (by simp [hx])⟩
            rcases List.mem_cons.1 hx with rfl | hx
            · exact (hT.val _).1 (by simpa [Trail.satisfies] using hs)
            · exact h3 hl hb x hx hpx
          · rw [if_neg hs] at h
            have hv : T.newDecisionLevel.value l.neg = none := by
              show T.value l.neg = none
              cases hv : T.value l.neg with
              | none => rfl
              | some b => cases b <;> simp [Trail.falsifies, Trail.satisfies, hv] at hf hs
            rw [Trail.decide_eq_push] at h
            have hT1 : (T.newDecisionLevel.push l.neg none).Inv :=
              Trail.push_inv (Trail.newDecisionLevel_inv hT) hv
                (by show l.var < T.nVars; omega)
            obtain ⟨h1, h2, h3, h4⟩ := asymAssume_spec ls _ hT1 hn T' b h
            obtain ⟨suf, lsuf, e1, e2, e3⟩ := h1.ext
            have e1' : T'.stack = T.stack ++ (l.neg :: suf) := by
              rw [e1, push_stack]; simp [Trail.newDecisionLevel]
            have e2' : T'.lim = T.lim ++ (T.stack.length :: lsuf) := by
              rw [e2]; simp [Trail.push, Trail.setValue, Trail.newDecisionLevel]
            have hne : T'.lim ≠ T.lim := by
              rw [e2']; intro h
              have := congrArg List.length h
              simp at this
            refine ⟨⟨h1.inv, by rw [h1.nVars]; rfl, _, _, e1', e2', Or.inr ⟨_, rfl⟩⟩,
              fun h => (hne h).elim, fun h => (hne h).elim, fun a hsat ha => ?_⟩
            apply h4 a
            · intro x hx
              rw [push_stack, List.mem_append, List.mem_singleton] at hx
              rcases hx with hx | rfl
              · exact hsat x hx
              · exact ha l (by simp) hp
            · intro x hx; exact ha x (by simp [hx])

theorem asymAssume_defined {nv : Nat} {pivot : Option Lit} :
    ∀ (ls : List Lit) (T : Trail), (∀ l ∈ ls, l.var < nv) →
      ∃ r, Checker.asymAssume nv pivot ls T = some r
  | [], T, _ => ⟨_, rfl⟩
  | l :: ls, T, h => by
    rw [Checker.asymAssume]
    have ih := fun T => asymAssume_defined (nv := nv) (pivot := pivot) ls T (fun x hx => h x (by simp [hx]))
    have := h l (by simp)
    split
    · exact ih _
    · rw [if_neg (by omega)]
      split
      · exact ⟨_, rfl⟩
      · split
        · exact ih _
        · exact ih _

namespace Checker

/-- A clause that has not been deleted. -/
def live (ck : Checker) (c : Nat) : Prop := c ∈ ck.db.clauses ∧ (ck.db.store c).isDeleted = false

/-- Structural invariant. -/
structure Struct (ck : Checker) : Prop where
  tinv : ck.T.Inv
  nv : ck.T.nVars = ck.db.nVars
  fresh : ∀ c ∈ ck.db.clauses, c < ck.db.next
  wf : LiveWf ck.live ck.db.store ck.db.nVars
  binOk : BinOk ck.live ck.db.store ck.db.bin
  wcount : WCount ck.live ck.db.store ck.watch
  occ : ∀ l c, ck.live c → l ∈ ck.db.lits c → c ∈ ck.occ l

/-- What a check leaves unchanged. -/
structure Frame (ck ck' : Checker) : Prop where
  db : ck'.db = { ck.db with store := ck'.db.store }
  store : StoreExt ck.db.store ck'.db.store
  occ : ck'.occ = ck.occ
  num : ck'.numDeleted = ck.numDeleted

theorem Frame.refl (ck : Checker) : Frame ck ck := ⟨rfl, StoreExt.refl _, rfl, rfl⟩

theorem Frame.trans {a b c : Checker} (h : Frame a b) (h' : Frame b c) : Frame a c :=
  ⟨by rw [h'.db, h.db], h.store.trans h'.store, h'.occ.trans h.occ, h'.num.trans h.num⟩

theorem Frame.back {a b : Checker} (h : Frame a b) (T : Trail) : Frame a { b with T := T } :=
  ⟨h.db, h.store, h.occ, h.num⟩

theorem Frame.live {ck ck' : Checker} (h : Frame ck ck') (c : Nat) : ck'.live c ↔ ck.live c := by
  unfold Checker.live
  have h1 : ck'.db.clauses = ck.db.clauses := by rw [h.db]
  have h2 := (h.store c).2
  simp only [Cls.isDeleted, h1, h2]

theorem Frame.live_eq {ck ck' : Checker} (h : Frame ck ck') : ck'.live = ck.live := by
  funext c; exact propext (h.live c)

theorem Frame.hasEmpty {ck ck' : Checker} (h : Frame ck ck') : ck'.db.hasEmpty = ck.db.hasEmpty := by
  rw [h.db]

theorem Frame.nVars {ck ck' : Checker} (h : Frame ck ck') : ck'.db.nVars = ck.db.nVars := by
  rw [h.db]

theorem Frame.mem {ck ck' : Checker} (h : Frame ck ck') (c : Nat) (l : Lit) :
    l ∈ ck'.db.lits c ↔ l ∈ ck.db.lits c := (h.store c).1.mem_iff

/-- The assignment satisfies all live clauses of the checker. -/
def Models (ck : Checker) (a : Assign) : Prop := SatLive ck.live ck.db.store a

theorem Frame.models {ck ck' : Checker} (h : Frame ck ck') (a : Assign) : ck'.Models a ↔ ck.Models a := by
  unfold Models
  rw [h.live_eq]
  constructor
  · intro hs c hc
    obtain ⟨l, hl, hh⟩ := hs c hc
    exact ⟨l, (h.store c).1.mem_iff.1 hl, hh⟩
  · intro hs; exact hs.perm h.store

theorem Frame.struct {ck ck' : Checker} (h : Frame ck ck') (hs : Struct ck) (hT : ck'.T.Inv)
    (hn : ck'.T.nVars = ck.T.nVars) (hw : WCount ck.live ck'.db.store ck'.watch) : Struct ck' where
  tinv := hT
  nv := by rw [hn, hs.nv, h.nVars]
  fresh := by
    rw [h.db]; exact hs.fresh
  wf := by rw [h.live_eq, h.nVars]; exact hs.wf.perm h.store
  binOk := by
    have : ck'.db.bin = ck.db.bin := by rw [h.db]
    rw [h.live_eq, this]; exact hs.binOk.perm h.store
  wcount := by rw [h.live_eq]; exact hw
  occ l c hc hl := by
    rw [h.occ]; exact hs.occ l c ((h.live c).1 hc) ((h.mem c l).1 hl)

/-- Replacing the trail. -/
theorem Struct.withTrail {ck : Checker} (h : Struct ck) {T : Trail} (hT : T.Inv)
    (hn : T.nVars = ck.T.nVars) : Struct { ck with T := T } :=
  ⟨hT, by rw [hn]; exact h.nv, h.fresh, h.wf, h.binOk, h.wcount, h.occ⟩

/-- `check_asymm`. -/
theorem checkAsymm_spec {ck ck' : Checker} {ls : Clause} {pivot : Option Lit} {r : Bool}
    (hs : Struct ck) (h : ck.checkAsymm ls pivot = some (ck', r)) :
    Struct ck' ∧ Frame ck ck' ∧ Above ck.T ck'.T ∧
    (ck'.T.lim = ck.T.lim → r = true → ck.db.hasEmpty = false →
      ck'.T = ck.T ∨ ∀ l ∈ ls, pivot ≠ some l → l.neg ∈ ck.T.stack) ∧
    (ck'.T.lim = ck.T.lim → r = false → ∀ l ∈ ls, pivot ≠ some l → l.neg ∈ ck.T.stack) ∧
    (∀ a, ck.db.hasEmpty = false → ck.Models a → SatStack ck.T a →
      (∀ l ∈ ls, pivot ≠ some l → l.neg.holds a) → r = false ∧ SatStack ck'.T a) ∧
    (∀ a, ck.Models a → SatStack ck.T a → SatStack (ck'.T.backtrack ck.T.lim.length) a) := by
  unfold checkAsymm at h
  have hself : ck.T.backtrack ck.T.lim.length = ck.T := Trail.backtrack_none (by simp)
  by_cases he : ck.db.hasEmpty = true
  · rw [if_pos he] at h
    simp only [Option.some.injEq, Prod.mk.injEq] at h
    obtain ⟨rfl, rfl⟩ := h
    refine ⟨hs, Frame.refl _, Above.refl hs.tinv, ?_, by simp, ?_, ?_⟩
    · intro _ _ h; rw [he] at h; simp at h
    · intro a h; rw [he] at h; simp at h
    · intro a _ h; rw [hself]; exact h
  · rw [if_neg he] at h
    cases hA : asymAssume ck.db.nVars pivot ls ck.T with
    | none => rw [hA] at h; simp at h
    | some x =>
      obtain ⟨T, b⟩ := x
      rw [hA] at h
      obtain ⟨a1, a2, a3, a4⟩ := asymAssume_spec ls ck.T hs.tinv hs.nv T b hA
      cases b with
      | true =>
        simp only [Option.some.injEq, Prod.mk.injEq] at h
        obtain ⟨rfl, rfl⟩ := h
        refine ⟨hs.withTrail a1.inv a1.nVars, ⟨rfl, StoreExt.refl _, rfl, rfl⟩, a1,
          fun hl _ _ => Or.inl (a2 hl), by simp, fun a _ _ hst hls => ?_, fun a _ hst => ?_⟩
        · have := (a4 a hst hls).1; simp at this
        · rcases a1.back.2.2.2 with h1 | ⟨h1, h2⟩
          · intro l hl; simp only [h1] at hl; exact hst l hl
          · simp only [h2]; rw [a2 h1]; exact hst
      | false =>
        simp only at h
        obtain ⟨s, r', e, p1, p2, p3, p4, p5⟩ := propagateLoop_sem (live := ck.live) (bin := ck.db.bin)
          (ck.db.nVars + 1) ⟨ck.db.store, ck.watch, T⟩ a1.inv (a1.nVars.trans hs.nv) hs.wf hs.binOk
          hs.wcount (by omega)
        rw [e] at h
        simp only [Option.some.injEq, Prod.mk.injEq] at h
        obtain ⟨rfl, rfl⟩ := h
        have hfr : Frame ck { ck with db := { ck.db with store := s.store }, watch := s.watch, T := s.T } :=
          ⟨rfl, p3, rfl, rfl⟩
        simp only at p1 p2 p3 p4 p5
        have hab : Above ck.T s.T := by
          obtain ⟨suf, lsuf, e1, e2, e3⟩ := a1.ext
          obtain ⟨suf2, e4⟩ := p2.stack
          exact ⟨p1, p2.nVars.trans a1.nVars, suf ++ suf2, lsuf, by rw [e4, e1]; simp,
            by rw [p2.lim]; exact e2, e3⟩
        refine ⟨hfr.struct hs p1 (p2.nVars.trans a1.nVars) p4, hfr, hab, ?_, ?_, ?_, ?_⟩
        · intro hl _ _
          exact Or.inr (a3 (by rw [← hl]; exact p2.lim.symm) rfl)
        · intro hl _
          exact a3 (by rw [← hl]; exact p2.lim.symm) rfl
        · intro a _ hm hst hls
          obtain ⟨q1, q2⟩ := p5 a hm (a4 a hst hls).2
          subst q1
          exact ⟨rfl, q2⟩
        · intro a hm hst
          rcases hab.back.2.2.2 with h1 | ⟨h1, h2⟩
          · intro l hl; simp only [h1] at hl; exact hst l hl
          · simp only [h2]
            have hT : T = ck.T := a2 (by rw [← h1]; exact p2.lim.symm)
            subst hT
            exact (p5 a hm hst).2

theorem checkAsymm_defined {ck : Checker} {ls : Clause} {pivot : Option Lit} (hs : Struct ck)
    (hr : ∀ l ∈ ls, l.var < ck.db.nVars) : ∃ x, ck.checkAsymm ls pivot = some x := by
  unfold checkAsymm
  split
  · exact ⟨_, rfl⟩
  · obtain ⟨⟨T, b⟩, hA⟩ := asymAssume_defined (pivot := pivot) ls ck.T hr
    rw [hA]
    obtain ⟨a1, _⟩ := asymAssume_spec ls ck.T hs.tinv hs.nv T b hA
    cases b with
    | true => exact ⟨_, rfl⟩
    | false =>
      obtain ⟨s, r', e, _⟩ := propagateLoop_sem (live := ck.live) (bin := ck.db.bin)
        (ck.db.nVars + 1) ⟨ck.db.store, ck.watch, T⟩ a1.inv (a1.nVars.trans hs.nv) hs.wf hs.binOk
        hs.wcount (by omega)
      simp only [e]
      exact ⟨_, rfl⟩

/-- Stacks only grow and the levels stay the same. -/
structure Same (T T' : Trail) : Prop where
  lim : T'.lim = T.lim
  nVars : T'.nVars = T.nVars
  ext : ∃ suf, T'.stack = T.stack ++ suf

theorem Same.refl (T : Trail) : Same T T := ⟨rfl, rfl, [], by simp⟩
theorem Same.trans {a b c : Trail} (h : Same a b) (h' : Same b c) : Same a c := by
  obtain ⟨s, hs⟩ := h.ext; obtain ⟨s', hs'⟩ := h'.ext
  exact ⟨h'.lim.trans h.lim, h'.nVars.trans h.nVars, s ++ s', by rw [hs', hs]; simp⟩

theorem _root_.Candy.Above.same {T T' : Trail} (h : Above T T') : Same T (T'.backtrack T.lim.length) := by
  obtain ⟨_, h2, h3, h4⟩ := h.back
  refine ⟨h3, h2, ?_⟩
  rcases h4 with h4 | ⟨h4, h5⟩
  · exact ⟨[], by rw [h4]; simp⟩
  · obtain ⟨suf, _, h6, _⟩ := h.ext
    exact ⟨suf, by rw [h5, h6]⟩

/-- The inner loop: if all clauses pass, every model satisfies each of them without the pivot. -/
theorem ratClauses_spec {p : Lit} :
    ∀ (cs : List Nat) (ck : Checker) (level : Nat) (conflict : Bool) (ck' : Checker) (r : Bool),
      Struct ck → ck.T.lim.length = level → ratClauses level p cs ck conflict = some (ck', r) →
      Struct ck' ∧ Frame ck ck' ∧ Same ck.T ck'.T ∧
      ∀ a, ck.db.hasEmpty = false → ck.Models a → SatStack ck.T a → SatStack ck'.T a ∧
        (r = true → ∀ c ∈ cs, ck.live c → ∃ l ∈ ck.db.lits c, l ≠ p.neg ∧ l.holds a)
  | [], ck, level, conflict, ck', r, hs, hl, h => by
    simp only [ratClauses, Option.some.injEq, Prod.mk.injEq] at h
    obtain ⟨rfl, rfl⟩ := h
    exact ⟨hs, Frame.refl _, Same.refl _, fun a _ _ h => ⟨h, by simp⟩⟩
  | c :: cs, ck, level, conflict, ck', r, hs, hl, h => by
    rw [ratClauses] at h
    by_cases hd : (ck.db.store c).isDeleted = true
    · rw [if_pos hd] at h
      obtain ⟨h1, h2, h3, h4⟩ := ratClauses_spec cs ck level conflict ck' r hs hl h
      refine ⟨h1, h2, h3, fun a he hm hst => ⟨(h4 a he hm hst).1, fun hr d hdm hlive => ?_⟩⟩
      rcases List.mem_cons.1 hdm with rfl | hdm
      · have := hlive.2; rw [hd] at this; simp at this
      · exact (h4 a he hm hst).2 hr d hdm hlive
    · rw [if_neg hd] at h
      cases hA : ck.checkAsymm (ck.db.lits c) (some p.neg) with
      | none => rw [hA] at h; simp at h
      | some x =>
        obtain ⟨ck1, r1⟩ := x
        rw [hA] at h
        obtain ⟨s1, s2, s3, _, _, s5, s6⟩ := checkAsymm_spec hs hA
        simp only at h
        subst hl
        have hb := s3.back
        have hs2 : Struct { ck1 with T := ck1.T.backtrack ck.T.lim.length } :=
          s1.withTrail hb.1 (by rw [hb.2.1, s3.nVars])
        have hfr := s2.back (ck1.T.backtrack ck.T.lim.length)
        cases r1 with
        | false =>
          simp only [Bool.false_eq_true, if_false, Option.some.injEq, Prod.mk.injEq] at h
          obtain ⟨rfl, rfl⟩ := h
          exact ⟨hs2, hfr, s3.same, fun a he hm hst => ⟨s6 a hm hst, by simp⟩⟩
        | true =>
          simp only [if_true] at h
          obtain ⟨h1, h2, h3, h4⟩ := ratClauses_spec cs _ _ true ck' r hs2
            (by show (ck1.T.backtrack ck.T.lim.length).lim.length = _; rw [hb.2.2.1]) h
          refine ⟨h1, hfr.trans h2, s3.same.trans h3, fun a he hm hst => ?_⟩
          obtain ⟨k1, k2⟩ := h4 a (by rw [hfr.hasEmpty]; exact he) ((hfr.models a).2 hm) (s6 a hm hst)
          refine ⟨k1, fun hr d hdm hlive => ?_⟩
          rcases List.mem_cons.1 hdm with rfl | hdm
          · by_cases hex : ∃ l ∈ ck.db.lits d, l ≠ p.neg ∧ l.holds a
            · exact hex
            · have hn : ∀ l ∈ ck.db.lits d, (some p.neg) ≠ some l → l.neg.holds a := by
                intro l hl hne
                rw [Lit.holds_neg]
                intro hh
                exact hex ⟨l, hl, fun h => hne (by rw [h]), hh⟩
              have := (s5 a he hm hst hn).1
              simp at this
          · obtain ⟨l, l1, l2, l3⟩ := k2 hr d hdm ((hfr.live d).2 hlive)
            exact ⟨l, (hfr.mem d l).1 l1, l2, l3⟩

theorem ratClauses_defined {p : Lit} :
    ∀ (cs : List Nat) (ck : Checker) (level : Nat) (conflict : Bool), Struct ck →
      ck.T.lim.length = level → (∀ c ∈ cs, c ∈ ck.db.clauses) →
      ∃ x, ratClauses level p cs ck conflict = some x
  | [], ck, level, conflict, _, _, _ => ⟨_, rfl⟩
  | c :: cs, ck, level, conflict, hs, hl, hc => by
    rw [ratClauses]
    by_cases hd : (ck.db.store c).isDeleted = true
    · rw [if_pos hd]
      exact ratClauses_defined cs ck level conflict hs hl (fun x hx => hc x (by simp [hx]))
    · rw [if_neg hd]
      have hlive : ck.live c := ⟨hc c (by simp), by simpa using hd⟩
      obtain ⟨⟨ck1, r1⟩, hA⟩ := checkAsymm_defined (ls := ck.db.lits c) (pivot := some p.neg) hs
        (hs.wf c hlive)
      simp only [hA]
      obtain ⟨s1, s2, s3, _⟩ := checkAsymm_spec hs hA
      subst hl
      have hb := s3.back
      cases r1 with
      | false => exact ⟨_, rfl⟩
      | true =>
        simp only [if_true]
        refine ratClauses_defined cs _ _ true (s1.withTrail hb.1 (by rw [hb.2.1, s3.nVars]))
          (by show (ck1.T.backtrack ck.T.lim.length).lim.length = _; rw [hb.2.2.1]) ?_
        intro x hx
        show x ∈ ck1.db.clauses
        rw [s2.db]; exact hc x (by simp [hx])

/-- The loop over the pivots. -/
theorem ratLoop_spec :
    ∀ (ps : List Lit) (ck : Checker) (level : Nat) (ck' : Checker) (r : Bool),
      Struct ck → ck.T.lim.length = level → ratLoop level ps ck = some (ck', r) →
      Struct ck' ∧ Frame ck ck' ∧ Same ck.T ck'.T ∧
      ∀ a, ck.db.hasEmpty = false → ck.Models a → SatStack ck.T a → SatStack ck'.T a ∧
        (r = true → ∃ p ∈ ps, ∀ c, ck.live c → p.neg ∈ ck.db.lits c →
          ∃ l ∈ ck.db.lits c, l ≠ p.neg ∧ l.holds a)
  | [], ck, level, ck', r, hs, hl, h => by
    simp only [ratLoop, Option.some.injEq, Prod.mk.injEq] at h
    obtain ⟨rfl, rfl⟩ := h
    exact ⟨hs, Frame.refl _, Same.refl _, fun a _ _ h => ⟨h, by simp⟩⟩
  | p :: ps, ck, level, ck', r, hs, hl, h => by
    rw [ratLoop] at h
    by_cases hr : ck.db.nVars ≤ p.var
    · rw [if_pos hr] at h; simp at h
    · rw [if_neg hr] at h
      cases hA : ratClauses level p (ck.occ p.neg) ck false with
      | none => rw [hA] at h; simp at h
      | some x =>
        obtain ⟨ck1, r1⟩ := x
        rw [hA] at h
        obtain ⟨s1, s2, s3, s4⟩ := ratClauses_spec _ ck level false ck1 r1 hs hl hA
        cases r1 with
        | true =>
          simp only [Option.some.injEq, Prod.mk.injEq] at h
          obtain ⟨rfl, rfl⟩ := h
          refine ⟨s1, s2, s3, fun a he hm hst => ⟨(s4 a he hm hst).1, fun _ => ⟨p, by simp, ?_⟩⟩⟩
          intro c hc hp
          exact (s4 a he hm hst).2 rfl c (hs.occ _ c hc hp) hc
        | false =>
          simp only at h
          obtain ⟨h1, h2, h3, h4⟩ := ratLoop_spec ps ck1 level ck' r s1 (by rw [s3.lim]; exact hl) h
          refine ⟨h1, s2.trans h2, s3.trans h3, fun a he hm hst => ?_⟩
          obtain ⟨k1, k2⟩ := h4 a (by rw [s2.hasEmpty]; exact he) ((s2.models a).2 hm) (s4 a he hm hst).1
          refine ⟨k1, fun hr => ?_⟩
          obtain ⟨q, q1, q2⟩ := k2 hr
          refine ⟨q, by simp [q1], fun c hc hq => ?_⟩
          obtain ⟨l, l1, l2, l3⟩ := q2 c ((s2.live c).2 hc) ((s2.mem c _).2 hq)
          exact ⟨l, (s2.mem c l).1 l1, l2, l3⟩

theorem ratLoop_defined :
    ∀ (ps : List Lit) (ck : Checker) (level : Nat), Struct ck → ck.T.lim.length = level →
      (∀ l c, c ∈ ck.occ l → c ∈ ck.db.clauses) → (∀ l ∈ ps, l.var < ck.db.nVars) →
      ∃ x, ratLoop level ps ck = some x
  | [], ck, level, _, _, _, _ => ⟨_, rfl⟩
  | p :: ps, ck, level, hs, hl, hc, hv => by
    rw [ratLoop, if_neg (by have := hv p (by simp); omega)]
    obtain ⟨⟨ck1, r1⟩, hA⟩ := ratClauses_defined (p := p) (ck.occ p.neg) ck level false hs hl (hc _)
    simp only [hA]
    obtain ⟨s1, s2, s3, _⟩ := ratClauses_spec _ ck level false ck1 r1 hs hl hA
    cases r1 with
    | true => exact ⟨_, rfl⟩
    | false =>
      refine ratLoop_defined ps ck1 level s1 (by rw [s3.lim]; exact hl) ?_ ?_
      · intro l c h; rw [s2.occ] at h; rw [s2.db]; exact hc l c h
      · intro l h; rw [s2.nVars]; exact hv l (by simp [h])

end Checker
end Candy
