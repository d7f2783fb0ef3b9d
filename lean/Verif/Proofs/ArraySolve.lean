import Verif.Model.ArraySolve
import Verif.Proofs.ArraySearch
import Verif.Proofs.Attached

/-! The steps of the main loop of `solve` on arrays. -/

namespace Candy

variable {F : CNF}

theorem RepT.reset {A : ATrail} {T : Trail} (h : RepT A T) : RepT A.reset T.reset where
  vars := h.vars
  la := by simpa [ATrail.reset, Trail.reset] using h.la
  lv := by simpa [ATrail.reset, Trail.reset] using h.lv
  lt := h.lt
  ld := h.ld
  assigns v hv := by
    simp only [ATrail.reset, Trail.reset, List.getElem?_map, h.assigns v hv, Option.map_some]
  data v hv := by
    simp only [ATrail.reset, Trail.reset, List.getElem?_map, h.data v hv, Option.map_some]
  decision := h.decision
  size := by simp [ATrail.reset, Trail.reset]
  stack := by simp [ATrail.reset, Trail.reset]
  lim := rfl
  qhead := rfl
  asm := h.asm

theorem RepWt.replicate {n k : Nat} (h : 2 * n ≤ k) : RepWt n (List.replicate k []) (fun _ => []) where
  size := by simpa using h
  get p hp := by
    have := Lit.index_lt hp
    rw [List.getElem?_replicate, if_pos (by omega)]

theorem aAttachAll_sim {n next : Nat} {st : List Cls} {S : Nat → Cls} (hs : RepS next st S) :
    ∀ (cs : List Nat) {ws : List (List Watcher)} {W : Lit → List Watcher}, RepWt n ws W →
    (∀ c ∈ cs, c < next ∧ ∀ l ∈ (S c).lits, l.var < n) →
    ∃ ws', aAttachAll st cs ws = some ws' ∧ RepWt n ws' (attachAll S W cs)
  | [], ws, W, h, _ => ⟨ws, rfl, h⟩
  | c :: cs, ws, W, h, hc => by
    obtain ⟨h1, h2⟩ := hc c (by simp)
    have hc' : ∀ d ∈ cs, d < next ∧ ∀ l ∈ (S d).lits, l.var < n := fun d hd => hc d (by simp [hd])
    rw [aAttachAll, hs.get c h1, attachAll_cons]
    dsimp only
    unfold attOne
    match hl : (S c).lits with
    | [] => simp only [aAttachLong, Option.bind_some]; exact aAttachAll_sim hs cs h hc'
    | [x] => simp only [aAttachLong, Option.bind_some]; exact aAttachAll_sim hs cs h hc'
    | [x, y] => simp only [aAttachLong, Option.bind_some]; exact aAttachAll_sim hs cs h hc'
    | x :: y :: z :: r =>
      rw [hl] at h2
      obtain ⟨w1, e1, r1⟩ := h.attach (x := x) (y := y) (h2 x (by simp)) (h2 y (by simp)) c
      simp only [aAttachLong, e1, Option.bind_some]
      exact aAttachAll_sim hs cs r1 hc'

theorem aResetWatch_sim {db : DB} {st : List Cls} (hd : DBOk F db) (hs : RepS db.next st db.store) :
    ∃ ws, aResetWatch db.nVars st db.clauses = some ws ∧ RepWt db.nVars ws (resetWatch db) :=
  aAttachAll_sim hs db.clauses (RepWt.replicate (by omega))
    (fun c hc => ⟨hd.mem c hc, hd.wf c (hd.mem c hc)⟩)

theorem aFact_inv {T : Trail} (h : T.Inv) (hl : T.lim = []) {p : Lit} (hp : p.var < T.nVars) :
    (T.fact p).1.Inv ∧ (T.fact p).1.nVars = T.nVars ∧ (T.fact p).1.lim = T.lim := by
  have h1 : Trail.Inv { T with reason := upd T.reason p.var none, level := upd T.level p.var 0 } := {
    val := h.val
    nodup := h.nodup
    bound := h.bound
    limSorted := h.limSorted
    limLe := h.limLe
    lev := by
      intro pre q post hs
      simp only [upd_apply, hl]
      split
      · simp
      · have := h.lev pre q post hs
        rw [hl] at this; exact this
    qle := h.qle }
  unfold Trail.fact
  split
  · exact ⟨h, rfl, rfl⟩
  · rename_i hf
    dsimp only
    split
    · exact ⟨h1, rfl, rfl⟩
    · rename_i hs
      have hval : T.value p = none := by
        cases hv : T.value p with
        | none => rfl
        | some b =>
          cases b with
          | true => exact (hs (by
              simp only [Trail.satisfies, Trail.value] at hv ⊢
              rw [hv]; rfl)).elim
          | false => exact (hf (by simp only [Trail.falsifies]; rw [hv]; rfl)).elim
      have hd : (({ T with reason := upd T.reason p.var none, level := upd T.level p.var 0 } :
          Trail).setValue p) = T.push p none := by
        simp [Trail.setValue, Trail.push, Trail.decisionLevel, hl]
      rw [hd]
      exact ⟨Trail.push_inv h hval hp, rfl, rfl⟩

theorem aFacts_sim {db : DB} {st : List Cls} (hs : RepS db.next st db.store) :
    ∀ (cs : List Nat) {A : ATrail} {T : Trail} {db' : DB},
    RepT A T → T.Inv → (∀ c ∈ cs, c < db.next ∧ (db.lits c).length = 1 ∧ ∀ l ∈ db.lits c, l.var < T.nVars) →
    T.lim = [] →
    ∃ A', aFacts st cs (A, db'.hasEmpty) =
        some (A', ((cs.filterMap fun c => (db.lits c).head?).foldl factStep (T, db')).2.hasEmpty) ∧
      RepT A' ((cs.filterMap fun c => (db.lits c).head?).foldl factStep (T, db')).1
  | [], A, T, db', h, _, _, _ => ⟨A, rfl, h⟩
  | c :: cs, A, T, db', h, hi, hc, hf => by
    obtain ⟨h1, h2, h3⟩ := hc c (by simp)
    obtain ⟨l, hl⟩ := List.length_eq_one_iff.1 h2
    have hlv := h3 l (by rw [hl]; simp)
    obtain ⟨A1, e1, r1⟩ := h.fact hlv (fun hv => hi.length_lt hv hlv)
    obtain ⟨i1, i2, i3⟩ := aFact_inv hi hf hlv
    rw [aFacts, hs.get c h1]
    have hl' : (db.store c).lits = [l] := hl
    simp only [hl', e1]
    rw [List.filterMap_cons_some (b := l) (by rw [hl]; rfl), List.foldl_cons]
    have hstep : factStep (T, db') l =
        ((T.fact l).1, if (T.fact l).2 then db' else db'.emptyClause) := by
      unfold factStep
      cases hfl : T.fact l with
      | mk T1 b => cases b <;> simp
    rw [hstep]
    have he : (db'.hasEmpty || !(T.fact l).2) =
        (if (T.fact l).2 then db' else db'.emptyClause).hasEmpty := by
      cases (T.fact l).2 <;> simp [DB.emptyClause]
    rw [he]
    exact aFacts_sim hs cs r1 i1 (fun d hd => by
      obtain ⟨a, b, c⟩ := hc d (by simp [hd])
      exact ⟨a, b, fun l hl => by rw [i2]; exact c l hl⟩) (i3.trans hf)


theorem aUnits_sim : ∀ (ls : List Lit) {m : AMach} {s : Solver} {i : Nat}, RepM m s → s.trail.Inv →
    s.trail.lim = [] → s.trail.nVars = s.db.nVars → (s.trail.stack.drop i).take ls.length = ls →
    i + ls.length ≤ s.trail.stack.length →
    ∃ m', aUnits i ls.length m = some m' ∧
      RepM m' { s with trail := (ls.foldl unitStep (s.trail, s.db)).1,
                       db := (ls.foldl unitStep (s.trail, s.db)).2 }
  | [], m, s, i, hm, _, _, _, _, _ => ⟨m, rfl, hm⟩
  | l :: ls, m, s, i, hm, hi, hl, hn, ht, hle => by
    have hi' : i < s.trail.stack.length := by simp at hle; omega
    have hdrop := List.drop_eq_getElem_cons hi'
    rw [hdrop] at ht
    simp only [List.length_cons, List.take_succ_cons, List.cons.injEq] at ht
    obtain ⟨ht1, ht2⟩ := ht
    have hmem : l ∈ s.trail.stack := by rw [← ht1]; exact List.getElem_mem _
    have hlv : l.var < s.trail.nVars := hi.bound l hmem
    have hget : m.T.get i = some l := by
      rw [hm.trail.get hi', List.getElem?_eq_getElem hi', ht1]
    obtain ⟨m1, e1, r1, t1, w1⟩ := aCreate_sim hm (ls := [l]) (lbd := 0)
      (by simp; rw [← hn]; exact hlv) (by simp)
    obtain ⟨A1, f1, f2⟩ := r1.trail.fact (p := l) hlv (fun hv => hi.length_lt hv hlv)
    obtain ⟨i1, i2, i3⟩ := aFact_inv hi hl hlv
    have hstk : (s.trail.fact l).1.stack = s.trail.stack := by
      have hv := (hi.val l).2 hmem
      have hv : s.trail.satisfies l = true := by simpa [Trail.satisfies, Trail.value] using hv
      unfold Trail.fact
      split
      · rfl
      · dsimp only
    rw [List.length_cons, aUnits, hget]
    simp only [e1, f1]
    have hm1 : RepM { m1 with T := A1 }
        { s with trail := (s.trail.fact l).1, db := (s.db.createClause [l]).1 } :=
      ⟨f2, r1.store, r1.bin, r1.watch, r1.stamp, r1.lbd⟩
    exact aUnits_sim ls (i := i + 1) hm1 i1 (i3.trans hl) (by
        show (s.trail.fact l).1.nVars = (s.db.createClause [l]).1.nVars
        rw [i2, createClause_nVars]; exact hn)
      (by show ((s.trail.fact l).1.stack.drop (i + 1)).take ls.length = ls; rw [hstk]; exact ht2)
      (by show i + 1 + ls.length ≤ (s.trail.fact l).1.stack.length; rw [hstk]; simp at hle; omega)

theorem aMaterialize_sim {m : AMach} {s s' : Solver} (hd : DBOk F s.db) (h : L0 F s) (hm : RepM m s)
    (he : materialize s = some s') :
    ∃ m', aMaterialize s.db.unitClauses s.db.hasEmpty m = some (m', s'.db.hasEmpty) ∧ RepM m' s' := by
  have hnv : s.trail.nVars = s.db.nVars := h.core.nv
  obtain ⟨A1, e1, r1⟩ := aFacts_sim hm.store s.db.unitClauses (db' := s.db) hm.trail h.core.tinv
    (by
      intro c hc
      obtain ⟨h1, h2⟩ := List.mem_filter.1 hc
      have hlt := hd.mem c h1
      simp only [Bool.and_eq_true, beq_iff_eq] at h2
      exact ⟨hlt, h2.2, fun l hl => by rw [hnv]; exact hd.wf c hlt l hl⟩) h.lim
  obtain ⟨f1, f2, f3, f4, f5, f6, f7⟩ := factFold_spec s.db.unitLits s.trail s.db h.core h.lim hd
    (unitLits_spec hd)
  unfold aMaterialize
  rw [e1]
  unfold materialize at he
  dsimp only at he
  change RepT A1 (s.db.unitLits.foldl factStep (s.trail, s.db)).1 at r1
  show ∃ m', (match some (A1, (s.db.unitLits.foldl factStep (s.trail, s.db)).2.hasEmpty) with
    | none => none
    | some (A, true) => some ({ m with T := A }, true)
    | some (A, false) =>
      match aPropagateLoop m.bin (A.variables + 1) ⟨A, m.store, m.watch⟩ with
      | none => none
      | some (ps, some _) => some ({ m with T := ps.T, store := ps.store, watch := ps.watch }, true)
      | some (ps, none) =>
        (aUnits A.trailSize (ps.T.trailSize - A.trailSize)
          { m with T := ps.T, store := ps.store, watch := ps.watch }).map fun m => (m, false)) =
    some (m', s'.db.hasEmpty) ∧ RepM m' s'
  generalize s.db.unitLits.foldl factStep (s.trail, s.db) = x at *
  obtain ⟨T1, db1⟩ := x
  simp only at *
  have hlim1 : T1.lim = [] := by rw [f2.lim, h.lim]
  cases hE : db1.hasEmpty with
  | true =>
    rw [if_pos hE] at he
    simp only [Option.some.injEq] at he
    subst he
    refine ⟨{ m with T := A1 }, by simp only [hE], ?_⟩
    exact ⟨r1, by show RepS db1.next m.store db1.store; rw [f6.next, f6.store]; exact hm.store,
      by show RepWt db1.nVars m.bin db1.bin; rw [f6.nVars, f6.bin]; exact hm.bin,
      by show RepWt db1.nVars m.watch s.watch; rw [f6.nVars]; exact hm.watch,
      by show ∃ f, RepSt db1.nVars m.stamp f; rw [f6.nVars]; exact hm.stamp,
      by show ∃ f, RepSt db1.nVars m.lbd f; rw [f6.nVars]; exact hm.lbd⟩
  | false =>
    rw [if_neg (by simp [hE])] at he
    have hc1 : Core F db1.nVars db1.next db1.bin db1.store T1 := by
      rw [f6.nVars, f6.next, f6.bin, f6.store]; exact f1
    have hw1 : WatchInv db1.next db1.store s.watch := by
      rw [f6.next, f6.store]; exact h.watch
    have hq : LimQ T1 := by intro k hk; rw [hlim1] at hk; simp at hk
    have hTn : T1.nVars = db1.nVars := hc1.nv
    obtain ⟨ps, r, p1, p2, p3, p4, p5, p6, p7, p8, _⟩ := propagateLoop_spec (A := fun _ => False)
      (db1.nVars + 1) ⟨db1.store, s.watch, T1⟩ hc1 hw1 hq (by omega)
    obtain ⟨a', k1, k2, k3, k4⟩ := aPropagateLoop_sim (next := db1.next) (n := db1.nVars)
      (bin := db1.bin) (abin := m.bin)
      (by rw [f6.nVars, f6.bin]; exact hm.bin)
      (fun p w hw => (Core.binRange hc1 p w hw).2)
      (db1.nVars + 1) (a := ⟨A1, m.store, m.watch⟩) (s := ⟨db1.store, s.watch, T1⟩)
      ⟨r1, by show RepS db1.next m.store db1.store; rw [f6.next, f6.store]; exact hm.store,
        by show RepWt T1.nVars _ _; rw [hTn, f6.nVars]; exact hm.watch⟩
      ⟨hc1.tinv, by show ∀ c < db1.next, ∀ l ∈ (db1.store c).lits, l.var < T1.nVars
                    rw [hTn]; exact hc1.wf,
        by show ∀ p w, w ∈ s.watch p → w.cref < db1.next ∧ w.blocker.var < T1.nVars
           rw [hTn]
           intro p w hw
           obtain ⟨g1, g2, _⟩ := hw1.wmem p w hw
           exact ⟨g1, hc1.wf _ g1 _ g2⟩⟩ hTn p1
    have hv : A1.variables = db1.nVars := r1.vars.trans hTn
    have hpn : ps.T.nVars = db1.nVars := k4
    rw [p1] at he
    dsimp only
    rw [hv, k1]
    have hrep : RepM { m with T := a'.T, store := a'.store, watch := a'.watch }
        { s with db := { db1 with store := ps.store }, watch := ps.watch, trail := ps.T } :=
      ⟨k2.T, k2.store, by show RepWt db1.nVars m.bin db1.bin; rw [f6.nVars, f6.bin]; exact hm.bin,
        by show RepWt db1.nVars _ _; rw [← hpn]; exact k2.watch,
        by show ∃ f, RepSt db1.nVars m.stamp f; rw [f6.nVars]; exact hm.stamp,
        by show ∃ f, RepSt db1.nVars m.lbd f; rw [f6.nVars]; exact hm.lbd⟩
    cases r with
    | some c =>
      simp only [Option.some.injEq] at he
      subst he
      exact ⟨_, rfl, hrep.trail, hrep.store, hrep.bin, hrep.watch, hrep.stamp, hrep.lbd⟩
    | none =>
      simp only [Option.some.injEq] at he
      subst he
      obtain ⟨suf, hsuf⟩ := p4.stack
      simp only at hsuf p4
      have hd2 : ps.T.stack.drop T1.stack.length = suf := by rw [hsuf]; simp
      have hlen : a'.T.trailSize - A1.trailSize = suf.length := by
        rw [k2.T.size, r1.size, hsuf]; simp
      obtain ⟨m2, g1, g2⟩ := aUnits_sim suf (i := T1.stack.length) hrep p2.tinv
        (by show ps.T.lim = []; rw [p4.lim]; exact hlim1) hpn
        (by show (ps.T.stack.drop T1.stack.length).take suf.length = suf; rw [hd2]; simp)
        (by show T1.stack.length + suf.length ≤ ps.T.stack.length; rw [hsuf]; simp)
      dsimp only
      rw [hlen, r1.size, g1]
      have hemp : (suf.foldl unitStep (ps.T, { db1 with store := ps.store })).2.hasEmpty = false := by
        obtain ⟨db', _, h0, _, _, _, _, _, _, _, _, _, h11, _⟩ := unitFold_spec suf ps.T
          { db1 with store := ps.store } p2 (by rw [p4.lim]; exact hlim1) (f5.perm p5)
          (by intro l hl; rw [hsuf]; simp [hl])
        rw [← h0, h11]; exact hE
      rw [hd2]
      refine ⟨m2, ?_, g2⟩
      simp only [Option.map_some, Option.some.injEq, Prod.mk.injEq, true_and]
      exact hemp.symm

/-! ### The search loop -/

variable {u : Usage} {as : List Lit}

/-- A run on arrays and the run of the search model it corresponds to. -/
def ArraySimOut (fuel : Nat) (rs : Nat → Bool) (s : Solver) : ASearchOut → Prop
  | .ub => False
  | .more => ∃ o : Nat → Choice, (∀ i, (o i).Valid) ∧ (∀ i, (o i).restart = rs i) ∧ search fuel o s = none
  | .done m r c => ∃ (o : Nat → Choice) (s' : Solver), (∀ i, (o i).Valid) ∧ (∀ i, (o i).restart = rs i) ∧
      search fuel o s = some (s', r) ∧ RepM m s' ∧ s'.conflict = s.conflict ++ c

def consChoice (c : Choice) (o : Nat → Choice) : Nat → Choice
  | 0 => c
  | i + 1 => o i

theorem aSearch_sim (hu : u.Valid) (hn : u.NoInpr ∨ as = []) (hd : (as.map Lit.var).Nodup) :
    ∀ (fuel : Nat) {s : Solver} {m : AMach} {o : Nat → AChoice}, Searching u F as s → RepM m s →
    (∀ i, (o i).Valid) → ArraySimOut fuel (fun i => (o i).restart) s (aSearch s.recalc fuel o m)
  | 0, s, m, o, _, _, _ =>
    ⟨fun i => ⟨(o i).restart, firstFree⟩, fun _ => firstFree_valid _, fun _ => rfl, rfl⟩
  | fuel + 1, s, m, o, hs, hm, ho => by
    obtain ⟨ch, out, aout, h1, h2, h3, h4, h5⟩ := aSearchIter_sim (hs.ok hu).inv (ho 0) hm
      (fun ps c hp h0 => AtConflict.level_lt' hu hn hd ⟨hs, hp, h0⟩)
    rw [aSearch, h4]
    obtain ⟨out', e1, e2⟩ := searchIter_spec (hs.ok hu).inv h1
    rw [h3] at e1
    obtain rfl : out = out' := by simpa using e1
    cases h5 with
    | done g1 g2 =>
      refine ⟨consChoice ch fun i => ⟨(o (i + 1)).restart, firstFree⟩, _, ?_, ?_, ?_, g1, g2⟩
      · intro i; cases i with
        | zero => exact h1
        | succ i => exact firstFree_valid _
      · intro i; cases i with
        | zero => exact h2
        | succ i => rfl
      · rw [search]; simp only [consChoice, h3]
    | cont g1 =>
      rename_i m' s'
      obtain ⟨f1, f2, -⟩ := e2
      have ih := aSearch_sim hu hn hd fuel (hs.iter ch h1 h3) g1 (o := fun i => o (i + 1))
        (fun i => ho (i + 1))
      rw [f1.recalc] at ih
      dsimp only
      generalize aSearch s.recalc fuel (fun i => o (i + 1)) m' = x at ih
      cases x with
      | ub => exact ih
      | more =>
        obtain ⟨o', k1, k2, k3⟩ := ih
        refine ⟨consChoice ch o', ?_, ?_, ?_⟩
        · intro i; cases i with
          | zero => exact h1
          | succ i => exact k1 i
        · intro i; cases i with
          | zero => exact h2
          | succ i => exact k2 i
        · rw [search]; simp only [consChoice, h3]; exact k3
      | done m1 r c =>
        obtain ⟨o', s1, k1, k2, k3, k4, k5⟩ := ih
        refine ⟨consChoice ch o', s1, ?_, ?_, ?_, k4, by rw [k5, f2]⟩
        · intro i; cases i with
          | zero => exact h1
          | succ i => exact k1 i
        · intro i; cases i with
          | zero => exact h2
          | succ i => exact k2 i
        · rw [search]; simp only [consChoice, h3]; exact k3

/-! ### Values of eliminated variables -/

theorem RepT.satisfies {A : ATrail} {T : Trail} (h : RepT A T) : ∀ {ls : List Lit},
    (∀ l ∈ ls, l.var < T.nVars) → A.satisfies ls = some (ls.any fun l => T.satisfies l)
  | [], _ => rfl
  | l :: ls, hl => by
    rw [ATrail.satisfies, h.value (hl l (by simp))]
    have ih := h.satisfies (ls := ls) (fun x hx => hl x (by simp [hx]))
    have e : T.satisfies l = (T.value l == some true) := rfl
    cases hv : T.value l with
    | none => simp [ih, e, hv]
    | some b => cases b <;> simp [ih, e, hv]

theorem RepT.firstUnsat {A : ATrail} {T : Trail} (h : RepT A T) : ∀ {cs : List Clause},
    (∀ c ∈ cs, ∀ l ∈ c, l.var < T.nVars) →
    A.firstUnsat cs = some (cs.find? fun c => !c.any fun l => T.satisfies l)
  | [], _ => rfl
  | c :: cs, hl => by
    rw [ATrail.firstUnsat, h.satisfies (hl c (by simp)), List.find?_cons]
    have ih := h.firstUnsat (cs := cs) (fun x hx => hl x (by simp [hx]))
    cases hb : c.any fun l => T.satisfies l <;> simp [ih]

theorem litOf_some {v : Nat} {c : Clause} {l : Lit} (h : litOf v c = some l) : l ∈ c ∧ l.var = v :=
  ⟨List.mem_of_find?_eq_some h, by simpa using List.find?_some h⟩

/-- The reconstructed values fit into the arrays if no eliminated variable is assigned or eliminated
twice. -/
theorem aExtendModel_sim {cls : Nat → List Clause} : ∀ (vs : List Nat) {A : ATrail} {T : Trail},
    RepT A T → (∀ l ∈ T.stack, l.var < T.nVars) → (∀ v ∈ vs, v < T.nVars) →
    (T.stack.map Lit.var ++ vs).Nodup →
    (∀ v ∈ vs, cls v ≠ [] ∧ ∀ c ∈ cls v, ∀ l ∈ c, l.var < T.nVars) →
    ∃ A' T', A.extendModel cls vs = some A' ∧ extendModel cls vs T = some T' ∧ RepT A' T'
  | [], A, T, h, _, _, _, _ => ⟨A, T, rfl, rfl, h⟩
  | v :: vs, A, T, h, hb, hv, hnd, hc => by
    obtain ⟨c1, c2⟩ := hc v (by simp)
    have hvn := hv v (by simp)
    have hroom : T.stack.length < T.nVars := by
      have hsub : (T.stack.map Lit.var ++ v :: vs).length ≤ (List.range T.nVars).length := by
        refine List.Nodup.length_le_of_subset hnd ?_
        intro x hx
        rw [List.mem_range]
        rcases List.mem_append.1 hx with hx | hx
        · obtain ⟨l, hl, rfl⟩ := List.mem_map.1 hx; exact hb l hl
        · exact hv x hx
      simp at hsub; omega
    have key : ∀ l : Lit, l.var = v → ∃ A' T', (A.setValue l) = some A' ∧ T.setValue l = T' ∧ RepT A' T' ∧
        T'.stack = T.stack ++ [l] ∧ T'.nVars = T.nVars := by
      intro l hl
      obtain ⟨A', e1, e2⟩ := h.setValue (p := l) (by rw [hl]; exact hvn) hroom
      exact ⟨A', _, e1, rfl, e2, rfl, rfl⟩
    have next : ∀ {A' : ATrail} {T' : Trail}, RepT A' T' → T'.nVars = T.nVars →
        (T'.stack = T.stack ∨ ∃ l : Lit, l.var = v ∧ T'.stack = T.stack ++ [l]) →
        ∃ A'' T'', A'.extendModel cls vs = some A'' ∧ extendModel cls vs T' = some T'' ∧ RepT A'' T'' := by
      intro A' T' h' hn' hst
      refine aExtendModel_sim vs h' ?_ ?_ ?_ ?_
      · intro l hl
        rw [hn']
        rcases hst with hst | ⟨x, hx, hst⟩ <;> rw [hst] at hl
        · exact hb l hl
        · rcases List.mem_append.1 hl with hl | hl
          · exact hb l hl
          · simp at hl; subst hl; rw [hx]; exact hvn
      · intro x hx; rw [hn']; exact hv x (by simp [hx])
      · rcases hst with hst | ⟨x, hx, hst⟩ <;> rw [hst]
        · exact hnd.sublist (List.Sublist.append_left (List.sublist_cons_self _ _) _)
        · simpa [hx] using hnd
      · intro x hx; rw [hn']; exact hc x (by simp [hx])
    have hdef : ∃ A' T', ATrail.extendVar.extendDefault A v (cls v) = some A' ∧
        extendVar.extendDefault T v (cls v) = some T' ∧ RepT A' T' ∧ T'.nVars = T.nVars ∧
        (T'.stack = T.stack ∨ ∃ l : Lit, l.var = v ∧ T'.stack = T.stack ++ [l]) := by
      unfold ATrail.extendVar.extendDefault extendVar.extendDefault
      cases hcl : cls v with
      | nil => exact (c1 hcl).elim
      | cons c cs =>
        dsimp only
        cases hl : litOf v c with
        | none => exact ⟨A, T, rfl, rfl, h, rfl, Or.inl rfl⟩
        | some l =>
          have hlv : l.neg.var = v := by simp [(litOf_some hl).2]
          obtain ⟨A', T', e1, e2, e3, e4, e5⟩ := key l.neg hlv
          exact ⟨A', T', e1, congrArg some e2, e3, e5, Or.inr ⟨_, hlv, e4⟩⟩
    have hstep : ∃ A' T', A.extendVar v (cls v) = some A' ∧ extendVar T v (cls v) = some T' ∧ RepT A' T' ∧
        T'.nVars = T.nVars ∧ (T'.stack = T.stack ∨ ∃ l : Lit, l.var = v ∧ T'.stack = T.stack ++ [l]) := by
      unfold ATrail.extendVar extendVar
      rw [h.firstUnsat c2]
      cases hf : (cls v).find? fun c => !c.any fun l => T.satisfies l with
      | none => exact hdef
      | some c =>
        dsimp only
        cases hl : litOf v c with
        | none => exact hdef
        | some l =>
          obtain ⟨A', T', e1, e2, e3, e4, e5⟩ := key l (litOf_some hl).2
          exact ⟨A', T', e1, congrArg some e2, e3, e5, Or.inr ⟨_, (litOf_some hl).2, e4⟩⟩
    obtain ⟨A1, T1, e1, e2, e3, e4, e5⟩ := hstep
    obtain ⟨A2, T2, f1, f2, f3⟩ := next e3 e4 e5
    refine ⟨A2, T2, ?_, ?_, f3⟩
    · rw [ATrail.extendModel, e1]; exact f1
    · rw [extendModel, e2]; exact f2

end Candy
