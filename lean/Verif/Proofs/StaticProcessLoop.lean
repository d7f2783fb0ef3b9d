import Verif.Model.StaticProcessLoop
import Verif.Proofs.StaticTotal
import Verif.Proofs.ProcessLoop

/-!
# Termination of pre- and inprocessing with the static propagator

As `Proofs/ProcessLoop.lean`.
-/

namespace Candy

variable {F : CNF}

/-! ### Asymmetric variable reduction -/

theorem sAsymScanN_drop {v : Nat} : ∀ (os : List Nat) (st : SAVS) (n : Nat),
    drop3 (sAsymScanN v os st n) = sAsymScan v os st
  | [], st, n => by simp [sAsymScanN, sAsymScan, drop3]
  | o :: os, st, n => by
    rw [sAsymScanN, sAsymScan]
    rcases st.s.obj[o]? with _ | _ | c
    · rfl
    · exact sAsymScanN_drop os st n
    dsimp only
    by_cases h1 : ((st.s.db.lits c).any fun l => st.T.satisfies l) = true
    · rw [if_pos h1, if_pos h1]; exact sAsymScanN_drop os st n
    rw [if_neg h1, if_neg h1]
    rcases sPropagateLoop st.s.db.bin st.s.db.store (st.s.db.nVars + 1) st.W
      (asymDecide v (st.s.db.lits c) st.T.newDecisionLevel none).1 with _ | ⟨⟨W, T⟩, _ | cf⟩
    · rfl
    · exact sAsymScanN_drop os _ n
    simp only
    by_cases h2 : 1 < (st.s.db.lits c).length
    · rw [if_pos h2, if_pos h2]
      rcases (asymDecide v (st.s.db.lits c) st.T.newDecisionLevel none).2 with _ | l
      · rfl
      simp only
      rcases st.s.strengthen o l with _ | s1
      · rfl
      · exact sAsymScanN_drop os _ (n + 1)
    · rw [if_neg h2, if_neg h2]; rfl

theorem sAsymListN_drop : ∀ (vs : List Nat) (st : SAVS) (n : Nat), drop3 (sAsymListN vs st n) = sAsymList vs st
  | [], st, n => rfl
  | v :: vs, st, n => by
    rw [sAsymListN, sAsymList]
    split
    · rw [← sAsymScanN_drop (n := n)]
      cases sAsymScanN v (st.s.occ v) st n with
      | none => rfl
      | some x =>
        obtain ⟨st1, b, m⟩ := x
        cases b with
        | false => rfl
        | true => exact sAsymListN_drop vs st1 m
    · exact sAsymListN_drop vs st n

theorem sAsymAllN_drop {active : Bool} (st : SAVS) : drop3 (sAsymAllN active st) = sAsymAll active st := by
  rw [sAsymAllN, sAsymAll]
  split
  · exact sAsymListN_drop _ st 0
  · rfl

theorem sAsymScanN_cons (v o : Nat) (os : List Nat) (st : SAVS) (n : Nat) :
    sAsymScanN v (o :: os) st n = (sAsymScanN v [o] st n).bind fun x =>
      if x.2.1 then sAsymScanN v os x.1 x.2.2 else some (x.1, false, x.2.2) := by
  rw [sAsymScanN, sAsymScanN]
  split
  · rfl
  · simp [sAsymScanN]
  · dsimp only
    split
    · simp [sAsymScanN]
    · split
      · rfl
      · split
        · simp [sAsymScanN]
        · split
          · split
            · rfl
            · split
              · rfl
              · simp [sAsymScanN]
          · simp

theorem sAsymOneN_le {v o n m : Nat} {st st' : SAVS} (h : SAOk F st)
    (he : sAsymScanN v [o] st n = some (st', true, m)) : st'.s.total + m ≤ st.s.total + n := by
  rw [sAsymScanN] at he
  rcases hc : st.s.obj[o]? with _ | _ | c
  · rw [hc] at he; simp at he
  · rw [hc] at he
    simp only [sAsymScanN, Option.some.injEq, Prod.mk.injEq] at he
    obtain ⟨rfl, -, rfl⟩ := he
    exact Nat.le_refl _
  rw [hc] at he
  dsimp only at he
  split at he
  · simp only [sAsymScanN, Option.some.injEq, Prod.mk.injEq] at he
    obtain ⟨rfl, -, rfl⟩ := he
    exact Nat.le_refl _
  have hclt := h.ok.lt hc
  generalize hdec : asymDecide v (st.s.db.lits c) st.T.newDecisionLevel none = r at he
  obtain ⟨T1, l1⟩ := r
  let D := asymKeep v st.T (st.s.db.lits c)
  have hG : ∀ a, Sat a (F ++ unitsOf (D.map Lit.neg)) → Sat a F := fun a ha => (sat_append.1 ha).1
  have hcore1 := CoreB.newLevel (h.core.toBase h.lim hG 1) h.lim
  have hb1 : st.T.newDecisionLevel.decisionLevel ≤ 1 := by
    simp [Trail.newDecisionLevel, Trail.decisionLevel, h.lim]
  obtain ⟨a1, -, -, -, -, -, -, -, -, hmem⟩ := asymDecide_spec (v := v) (T0 := st.T)
    (ls := st.s.db.lits c) (st.s.db.lits c) st.T.newDecisionLevel none hcore1 hb1
    (h.ok.db.wf c hclt) (h.ok.db.nd c hclt) (fun _ h => h) (fun _ _ => rfl) (by
      intro x hx a ha
      have := sat_unitsOf.1 (sat_append.1 ha).2 x.neg (List.mem_map.2 ⟨x, hx, rfl⟩)
      exact ⟨x.neg, by simp, this⟩) T1 l1 hdec
  obtain ⟨W2, T2, rr, e1, -⟩ := sPropagateLoop_specL (L := False)
    (st.s.db.nVars + 1) st.W T1 a1 h.watch (fun h => h.elim) (by omega)
  simp only at he
  rw [e1] at he
  simp only at he
  cases rr with
  | none =>
    simp only [sAsymScanN, Option.some.injEq, Prod.mk.injEq] at he
    obtain ⟨rfl, -, rfl⟩ := he
    exact Nat.le_refl _
  | some cf =>
    simp only at he
    split at he
    · cases l1 with
      | none => simp at he
      | some l =>
        simp only at he
        obtain ⟨s2, k1, -, k2, -⟩ := strengthen_total (l := l) h.ok (i := o) (c := c) hc
        simp only [k1, sAsymScanN, Option.some.injEq, Prod.mk.injEq] at he
        obtain ⟨rfl, -, rfl⟩ := he
        have hl : l ∈ st.s.db.lits c := by
          rcases hmem l rfl with h | h
          · simp at h
          · exact h.1
        have := k2 hl
        simp only
        omega
    · simp at he

theorem sAsymScanN_le {v : Nat} : ∀ (os : List Nat) (st : SAVS) (n : Nat) (st' : SAVS) (n' : Nat), SAOk F st → os.Nodup →
    (∀ o ∈ os, o < st.s.obj.length) →
    (∀ o ∈ os, ∀ c, st.s.obj[o]? = some (some c) → ∃ l ∈ st.s.db.lits c, l.var = v) →
    sAsymScanN v os st n = some (st', true, n') → st'.s.total + n' ≤ st.s.total + n
  | [], st, n, st', n', _, _, _, _, he => by
    simp only [sAsymScanN, Option.some.injEq, Prod.mk.injEq] at he
    obtain ⟨rfl, -, rfl⟩ := he
    exact Nat.le_refl _
  | o :: os, st, n, st', n', h, hn, hl, hv, he => by
    have hn' := List.nodup_cons.1 hn
    obtain ⟨st1, b, e1, e2, e3⟩ := sAsymOne_total h (hl o (by simp)) (hv o (by simp))
    obtain ⟨a1, a2, -, -⟩ := sAsymScan_spec [o] st h (by simp) (by
      intro x hx; simp at hx; subst hx; exact hv x (by simp)) st1 b e1
    obtain ⟨m, e4⟩ := drop3_some ((sAsymScanN_drop [o] st n).trans e1)
    rw [sAsymScanN_cons, e4] at he
    cases b with
    | false => simp at he
    | true =>
      obtain ⟨_, hx⟩ := a2.sound h.ok
      have := sAsymScanN_le os st1 m st' n' a1 hn'.2 (by
          intro x hx; rw [e2]; exact hl x (by simp [hx])) (by
          intro x hxm c hc
          have hxo : x ≠ o := fun e => hn'.1 (e ▸ hxm)
          rw [e3 x hxo] at hc
          obtain ⟨l, h1, h2⟩ := hv x (by simp [hxm]) c hc
          exact ⟨l, (hx.lits c (h.ok.lt hc)).mem_iff.2 h1, h2⟩) (by simpa using he)
      have := sAsymOneN_le h e4
      omega

theorem sAsymListN_le : ∀ (vs : List Nat) (st : SAVS) (n : Nat) (st' : SAVS) (n' : Nat), SAOk F st →
    sAsymListN vs st n = some (st', true, n') → st'.s.total + n' ≤ st.s.total + n
  | [], st, n, st', n', _, he => by
    simp only [sAsymListN, Option.some.injEq, Prod.mk.injEq] at he
    obtain ⟨rfl, -, rfl⟩ := he
    exact Nat.le_refl _
  | v :: vs, st, n, st', n', h, he => by
    rw [sAsymListN] at he
    split at he
    · rcases e : sAsymScanN v (st.s.occ v) st n with _ | ⟨st1, b, m⟩
      · rw [e] at he; simp at he
      rw [e] at he
      cases b with
      | false => simp at he
      | true =>
        simp only at he
        have e' : sAsymScan v (st.s.occ v) st = some (st1, true) := by rw [← sAsymScanN_drop (n := n), e]; rfl
        have := sAsymListN_le vs st1 m st' n' (sAsymScan_spec _ st h (h.ok.occNd v) (h.ok.occVar v) _ _ e').1 he
        have := sAsymScanN_le (st.s.occ v) st n st1 m h (h.ok.occNd v) (h.ok.occLt v) (h.ok.occVar v) e
        omega
    · exact sAsymListN_le vs st n st' n' h he

theorem sAsymAllN_le {active : Bool} {st st' : SAVS} {n : Nat} (h : SAOk F st)
    (he : sAsymAllN active st = some (st', true, n)) : st'.s.total + n ≤ st.s.total := by
  rw [sAsymAllN] at he
  split at he
  · exact sAsymListN_le _ st 0 st' n h he
  · simp only [Option.some.injEq, Prod.mk.injEq] at he
    obtain ⟨rfl, -, rfl⟩ := he
    exact Nat.le_refl _

/-! ### One round -/

/-- The state after the reduction. -/
def SProc.putA (q : SProc) (st : SAVS) : Proc :=
  { sys := { q.p.sys with sol := { q.p.sys.sol with db := st.s.db, trail := st.T } }, obj := st.s.obj, occ := st.s.occ }

theorem SQInv.materialize_len {p q : SProc} (h : SQInv F p) (he : p.materialize = some q) :
    q.p.sdb.total = p.p.sdb.total ∧ q.p.sys.ve = p.p.sys.ve := by
  obtain ⟨t, h1, h2, h3, -, h4, h5⟩ := h.q.inv.sMaterialize h.w
  unfold SProc.materialize at he
  rw [h1] at he
  simp at he; subst he
  refine ⟨?_, rfl⟩
  unfold SDB.total Proc.sdb
  rw [objLen_congr]
  intro i c hc
  have hm : c ∈ p.p.sys.sol.db.clauses := h.q.ok.obj i c hc
  have n1 : (p.p.sys.sol.db.lits c).Nodup := List.Pairwise.of_map Lit.var (fun a b hab e => hab (by rw [e]))
    (h.q.inv.db.nd c (h.q.inv.db.mem c hm))
  have n2 : (t.sol.db.lits c).Nodup := List.Pairwise.of_map Lit.var (fun a b hab e => hab (by rw [e]))
    (h2.db.nd c (h2.db.mem c (h4 c hm)))
  exact ((List.perm_ext_iff_of_nodup n2 n1).2 (h5 c hm)).length_eq

theorem SQInv.roundN {p : SProc} (cfg : Config) {r : SimpRound} (h : SQInv F p) (hord : ∀ f xs, ∀ x ∈ r.order f xs, x ∈ xs) :
    ∃ q on R, p.roundN cfg r = some (q, on) ∧ R.before = r.before ∧ R.order = r.order ∧
      p.round cfg R = some (q, on.isSome) ∧
      (p.p.sys.sol.db.hasEmpty = true → on = none) ∧
      ∀ n, on = some n → q.p.sys.sol.db.hasEmpty = true ∨ n = 0 ∨ q.p.Less p.p := by
  obtain ⟨p1, e1, v1⟩ := h.materialize_total
  obtain ⟨q1, g1⟩ := h.materialize e1
  obtain ⟨t1, -⟩ := h.materialize_len e1
  unfold SProc.roundN SProc.round
  simp only [e1]
  cases hE1 : p1.p.sys.sol.db.hasEmpty with
  | true => exact ⟨p1, none, ⟨0, r.before, r.order, false, false, false⟩, by simp, rfl, rfl, by simp, by simp, by simp⟩
  | false =>
    have hpe : p.p.sys.sol.db.hasEmpty = true → False := fun e => by rw [g1.hasEmpty e] at hE1; simp at hE1
    simp only [Bool.false_eq_true, if_false]
    -- subsumption
    obtain ⟨s1, b1, d1⟩ := subsumeAll_total (before := r.before) (fuel := p1.p.sdb.total + 1) q1.q.ok hE1 (by omega)
    obtain ⟨n1, d2⟩ := drop3_some ((subsumeAllN_drop (before := r.before) (fuel := p1.p.sdb.total + 1) p1.p.sdb).trans d1)
    have d3 : b1 = true → s1.total + n1 ≤ p1.p.sdb.total := by
      rintro rfl
      exact subsumeAllN_le q1.q.ok hE1 (by omega) d2
    have e2 : p1.subsumeN r = some (⟨(p1.p.setSdb s1).after b1 (decide (0 < n1)), p1.W⟩, n1) := by
      simp only [SProc.subsumeN, Proc.subsumeN, d2, Option.map_some]
    have e2' : ∀ c2 c3, p1.subsume ⟨p1.p.sdb.total + 1, r.before, r.order, decide (0 < n1), c2, c3⟩ =
        some ⟨(p1.p.setSdb s1).after b1 (decide (0 < n1)), p1.W⟩ := by
      intro c2 c3
      simp only [SProc.subsume, Proc.subsume, d1, Option.map_some]
    obtain ⟨q2, g2⟩ := q1.subsume (e2' false false)
    have v2 : ((p1.p.setSdb s1).after b1 (decide (0 < n1))).sys.ve = p1.p.sys.ve := by rw [after_ve]; rfl
    have t2 : ((p1.p.setSdb s1).after b1 (decide (0 < n1))).sdb.total = s1.total := by rw [after_total]; rfl
    have f2 : b1 = false → ((p1.p.setSdb s1).after b1 (decide (0 < n1))).sys.sol.db.hasEmpty = true := by
      rintro rfl; exact after_false _ _
    generalize hp2 : (p1.p.setSdb s1).after b1 (decide (0 < n1)) = p2 at *
    obtain ⟨p3, e3, v3⟩ := q2.materialize_total
    obtain ⟨q3, g3⟩ := q2.materialize e3
    obtain ⟨t3, -⟩ := q2.materialize_len e3
    simp only [e2, e3]
    cases hE3 : p3.p.sys.sol.db.hasEmpty with
    | true =>
      exact ⟨p3, none, ⟨p1.p.sdb.total + 1, r.before, r.order, decide (0 < n1), false, false⟩, by simp, rfl, rfl,
        by simp [e2' false false, e3, hE3], fun _ => rfl, by simp⟩
    | false =>
      have hb1 : b1 = true := by
        cases b1 with
        | true => rfl
        | false => rw [g3.hasEmpty (f2 rfl)] at hE3; simp at hE3
      simp only [Bool.false_eq_true, if_false]
      -- reduction
      have hl := q3.q.inv.l0 hE3
      have hA : SAOk F ⟨p3.p.sdb, p3.W, p3.p.sys.sol.trail⟩ := ⟨q3.q.ok, hl.core, q3.w.w, hl.lim⟩
      obtain ⟨st, b2, k1⟩ := sAsymAll_total (active := cfg.useAsymm) hA
      obtain ⟨n2, k2⟩ := drop3_some ((sAsymAllN_drop (active := cfg.useAsymm) _).trans k1)
      have k3 : b2 = true → st.s.total + n2 ≤ p3.p.sdb.total := by
        rintro rfl
        exact sAsymAllN_le hA k2
      have e4 : p3.reduceN cfg = some (⟨(p3.putA st).after b2 (decide (0 < n2)), st.W⟩, n2) := by
        simp only [SProc.reduceN, k2, Option.map_some]; rfl
      have e4' : ∀ c3, p3.reduce cfg ⟨p1.p.sdb.total + 1, r.before, r.order, decide (0 < n1), decide (0 < n2), c3⟩ =
          some ⟨(p3.putA st).after b2 (decide (0 < n2)), st.W⟩ := by
        intro c3
        simp only [SProc.reduce, k1, Option.map_some]; rfl
      obtain ⟨q4, g4⟩ := q3.reduce hE3 (e4' false)
      have v4 : ((p3.putA st).after b2 (decide (0 < n2))).sys.ve = p3.p.sys.ve := by rw [after_ve]; rfl
      have t4 : ((p3.putA st).after b2 (decide (0 < n2))).sdb.total = st.s.total := by
        rw [after_total]; rfl
      have f4 : b2 = false → ((p3.putA st).after b2 (decide (0 < n2))).sys.sol.db.hasEmpty = true := by
        rintro rfl; exact after_false _ _
      generalize hp4 : (p3.putA st).after b2 (decide (0 < n2)) = p4 at *
      obtain ⟨p5, e5, v5⟩ := q4.materialize_total
      obtain ⟨q5, g5⟩ := q4.materialize e5
      obtain ⟨t5, -⟩ := q4.materialize_len e5
      simp only [e4, e5]
      cases hE5 : p5.p.sys.sol.db.hasEmpty with
      | true =>
        exact ⟨p5, none, ⟨p1.p.sdb.total + 1, r.before, r.order, decide (0 < n1), decide (0 < n2), false⟩, by simp, rfl, rfl,
          by simp [e2' _ _, e3, hE3, e4' _, e5, hE5], fun _ => rfl, by simp⟩
      | false =>
        have hb2 : b2 = true := by
          cases b2 with
          | true => rfl
          | false => rw [g5.hasEmpty (f4 rfl)] at hE5; simp at hE5
        simp only [Bool.false_eq_true, if_false]
        -- elimination
        obtain ⟨sv, b3, m1, -⟩ := eliminateAll_total (active := cfg.useElim) (lim := cfg.clauseLim)
          (order := r.order) (st := ⟨p5.p.sdb, p5.p.sys.ve, p5.p.sys.sol.trail⟩) (F := F) q5.q.ok q5.q.inv.ve
        obtain ⟨n3, m2⟩ := drop3_some ((eliminateAllN_drop (active := cfg.useElim) (lim := cfg.clauseLim)
          (order := r.order) _).trans m1)
        obtain ⟨m3, m4, m5⟩ := eliminateAllN_le hord m2
        have e6 : p5.eliminateN cfg r = some (⟨(p5.p.putV sv).after b3 (decide (0 < n3)), p5.W⟩, n3) := by
          simp only [SProc.eliminateN, Proc.eliminateN, m2, Option.map_some]; rfl
        have e6' : p5.eliminate cfg ⟨p1.p.sdb.total + 1, r.before, r.order, decide (0 < n1), decide (0 < n2), decide (0 < n3)⟩ =
            some ⟨(p5.p.putV sv).after b3 (decide (0 < n3)), p5.W⟩ := by
          simp only [SProc.eliminate, Proc.eliminate, m1, Option.map_some]; rfl
        obtain ⟨q6, g6⟩ := q5.eliminate e6'
        refine ⟨_, some (n1 + n3 + n2), ⟨p1.p.sdb.total + 1, r.before, r.order, decide (0 < n1), decide (0 < n2), decide (0 < n3)⟩,
          by rw [e6]; rfl, rfl, rfl, by simp [e2' _ _, e3, hE3, e4' _, e5, hE5, e6'], fun h => (hpe h).elim, ?_⟩
        intro n hn
        simp only [Option.some.injEq] at hn
        subst hn
        right
        by_cases hz : n1 + n3 + n2 = 0
        · exact Or.inl hz
        right
        have hnv := (((((g1.trans g2).trans g3).trans g4).trans g5).trans g6).tnVars
        have hnv5 := ((((g1.trans g2).trans g3).trans g4).trans g5).tnVars
        have hve : p5.p.sys.ve = p.p.sys.ve := by rw [v5, v4, v3, v2, v1]
        unfold Proc.Less
        rw [hnv, after_ve, after_total]
        simp only at m3 m5 ⊢
        rw [hnv5, hve] at m3 m5
        by_cases h3 : 0 < n3
        · exact Or.inl (m5 h3)
        · rcases Nat.lt_or_eq_of_le m3 with hlt | heq
          · exact Or.inl hlt
          · refine Or.inr ⟨heq, ?_⟩
            have hs : sv.s = p5.p.sdb := m4 (by omega)
            have : (p5.p.putV sv).sdb = sv.s := rfl
            rw [this, hs]
            have := d3 hb1
            have := k3 hb2
            simp only at t3 t5
            omega

/-! ### The loop -/

/-- The loop has an end from `p`, and does the rounds `Rs` until then. -/
def SProc.Ends (cfg : Config) (term : Nat → Bool) (rs : Nat → SimpRound) (k num max : Nat) (p : SProc) : Prop :=
  ∃ N q Rs, (∀ f, N ≤ f → SProc.loopN cfg term rs f k num max p = some q) ∧
    SProc.rounds cfg Rs p = some q ∧ Rs.length ≤ N ∧
    ∀ R ∈ Rs, ∃ i, R.before = (rs i).before ∧ R.order = (rs i).order

theorem SProc.Ends.stop {cfg : Config} {term : Nat → Bool} {rs : Nat → SimpRound} {k num max : Nat} {p : SProc}
    (h : ¬(max < 10 * num ∧ term k = false)) : p.Ends cfg term rs k num max := by
  refine ⟨1, p, [], fun f hf => ?_, rfl, by simp, by simp⟩
  obtain ⟨f, rfl⟩ : ∃ g, f = g + 1 := ⟨f - 1, by omega⟩
  simp only [SProc.loopN, if_neg h]

theorem SProc.Ends.zero {cfg : Config} {term : Nat → Bool} {rs : Nat → SimpRound} {k max : Nat} {p : SProc} :
    p.Ends cfg term rs k 0 max := .stop (by omega)

/-- One more round. -/
theorem SQInv.ends_step {p : SProc} {cfg : Config} {term : Nat → Bool} {rs : Nat → SimpRound} {k num max : Nat}
    (h : SQInv F p) (hord : ∀ i f xs, ∀ x ∈ (rs i).order f xs, x ∈ xs)
    (next : ∀ q, SQInv F q → p.p.sys.sol.db.hasEmpty = false → q.p.sys.sol.db.hasEmpty = true ∨ q.p.Less p.p →
      ∀ k num max, q.Ends cfg term rs k num max) :
    p.Ends cfg term rs k num max := by
  rcases Classical.em (max < 10 * num ∧ term k = false) with hc | hc
  rotate_left
  · exact .stop hc
  obtain ⟨q, on, R, e, hb, ho, er, hE, hn⟩ := h.roundN cfg (r := rs k) (hord k)
  have hq : SQInv F q := (h.round er).1
  cases on with
  | none =>
    refine ⟨1, q, [R], fun f hf => ?_, ?_, by simp, ?_⟩
    · obtain ⟨f, rfl⟩ : ∃ g, f = g + 1 := ⟨f - 1, by omega⟩
      simp only [SProc.loopN, if_pos hc, e]
    · simp only [Option.isSome_none] at er
      simp only [SProc.rounds, er]
    · intro R' hR'
      simp only [List.mem_singleton] at hR'
      subst hR'
      exact ⟨k, hb, ho⟩
  | some n =>
    have hpe : p.p.sys.sol.db.hasEmpty = false := by
      cases hp : p.p.sys.sol.db.hasEmpty with
      | false => rfl
      | true => exact absurd (hE hp) (by simp)
    have : q.Ends cfg term rs (k + 1) n (Nat.max n max) := by
      rcases hn n rfl with h1 | rfl | h1
      · exact next q hq hpe (Or.inl h1) _ _ _
      · exact .zero
      · exact next q hq hpe (Or.inr h1) _ _ _
    obtain ⟨N, q', Rs, a1, a2, a3, a4⟩ := this
    refine ⟨N + 1, q', R :: Rs, fun f hf => ?_, ?_, by simpa using a3, ?_⟩
    · obtain ⟨f, rfl⟩ : ∃ g, f = g + 1 := ⟨f - 1, by omega⟩
      simp only [SProc.loopN, if_pos hc, e]
      exact a1 f (by omega)
    · simp only [Option.isSome_some] at er
      simp only [SProc.rounds, er]
      exact a2
    · intro R' hR'
      rcases List.mem_cons.1 hR' with rfl | hR'
      · exact ⟨k, hb, ho⟩
      · exact a4 R' hR'

theorem SQInv.ends {cfg : Config} {term : Nat → Bool} {rs : Nat → SimpRound}
    (hord : ∀ i f xs, ∀ x ∈ (rs i).order f xs, x ∈ xs) :
    ∀ {p : SProc}, SQInv F p → ∀ k num max, p.Ends cfg term rs k num max := by
  have empty : ∀ {p : SProc}, SQInv F p → p.p.sys.sol.db.hasEmpty = true → ∀ k num max, p.Ends cfg term rs k num max :=
    fun h he _ _ _ => h.ends_step hord (fun q _ hf => by rw [he] at hf; simp at hf)
  have main : ∀ L, ∀ T, ∀ {p : SProc}, SQInv F p → p.p.sys.ve.left p.p.sys.sol.trail.nVars = L → p.p.sdb.total = T →
      ∀ k num max, p.Ends cfg term rs k num max := by
    intro L
    induction L using Nat.strongRecOn with
    | _ L ihL =>
      intro T
      induction T using Nat.strongRecOn with
      | _ T ihT =>
        intro p h hL hT k num max
        refine h.ends_step hord (fun q hq _ hor => ?_)
        rcases hor with he | hlt | ⟨heq, hlt⟩
        · exact empty hq he
        · exact ihL _ (by omega) _ hq rfl rfl
        · exact ihT _ (by omega) hq (by omega) rfl
  exact fun {_} h => main _ _ h rfl rfl


/-- `processClauseDatabase` ends, and is a `process` of finitely many rounds. -/
theorem PInv.sProcessLoop_ends {s : SSys} (cfg : Config) (term : Nat → Bool) (rs : Nat → SimpRound)
    (hord : ∀ i f xs, ∀ x ∈ (rs i).order f xs, x ∈ xs) (h : PInv F s.sys) (hw : SWOk s.sys.sol s.W) :
    ∃ N s' Rs, (∀ f, N ≤ f → s.processLoop cfg term rs f = some s') ∧
      s.process cfg Rs = some s' ∧ Rs.length ≤ N ∧
      ∀ R ∈ Rs, ∃ i, R.before = (rs i).before ∧ R.order = (rs i).order := by
  obtain ⟨N, q, Rs, a1, a2, a3, a4⟩ := (SQInv.start h hw).1.ends hord (cfg := cfg) (term := term) 0 1 0
  exact ⟨N, ⟨q.p.sys, q.W⟩, Rs, fun f hf => by unfold SSys.processLoop; simp only [a1 f hf, Option.map_some],
    by unfold SSys.process; simp only [a2, Option.map_some], a3, a4⟩

/-! ### `solve` with the loops -/

theorem PInv.sReduceStepL_ends {s : SSys} (cfg : Config) {r : RoundL} (hr : r.Valid) (h : PInv F s.sys) (hw : SWOk s.sys.sol s.W) :
    ∃ N s' r', (∀ f, N ≤ f → s.reduceStepL cfg f r = some s') ∧ r.Like r' ∧
      ∀ n, s.reduceStep cfg { r' with steps := n } = some s' := by
  obtain ⟨tr, inp, sort, choice⟩ := r
  cases tr with
  | false =>
    refine ⟨0, s, ⟨false, inp.map fun _ => [], sort, 0, choice⟩, fun _ _ => rfl, ⟨rfl, ?_, rfl, rfl, ?_⟩, fun n => rfl⟩
    · cases inp <;> rfl
    · rintro Rs i h1 (h2 : inp = some i)
      subst h2
      simp only [Option.map_some, Option.some.injEq] at h1
      subst h1
      simp
  | true =>
    cases inp with
    | none =>
      exact ⟨0, _, ⟨true, none, sort, 0, choice⟩, fun _ _ => rfl, ⟨rfl, rfl, rfl, rfl, by simp⟩, fun n => rfl⟩
    | some i =>
      obtain ⟨N, s1, Rs, a1, a2, -, a4⟩ := h.sProcessLoop_ends cfg i.term i.rounds (hr.inprocess i rfl) hw
      refine ⟨N, ⟨{ s1.sys with sol := { s1.sys.sol with db := s1.sys.sol.db.reorganize } }, SW.reset s1.sys.sol.db.reorganize⟩,
        ⟨true, some Rs, sort, 0, choice⟩, fun f hf => ?_, ⟨rfl, rfl, rfl, rfl, ?_⟩, fun n => ?_⟩
      · simp only [SSys.reduceStepL, if_true, a1 f hf, Option.map_some]
      · rintro Rs' i' h1 h2
        simp only [Option.some.injEq] at h1 h2
        subst h1 h2
        exact a4
      · simp only [SSys.reduceStep, if_true, a2, Option.map_some]

theorem SRoundInv.roundL_ends {s : SSys} (cfg : Config) {r : RoundL} (hr : r.Valid) (h : SRoundInv F s)
    (hb : ∀ l ∈ s.sys.sol.trail.assumptions, l.var < s.sys.sol.db.nVars) :
    ∃ N x r', (∀ f, N ≤ f → s.solveRoundL cfg f r = some x) ∧ r.Like r' ∧ s.solveRound cfg r' = some x ∧
      ((∀ i, (r.choice i).restart = false) → x.2 ≠ none) := by
  obtain ⟨N, s1, r', e, hl, e'⟩ := h.reset.1.sReduceStepL_ends cfg hr h.reset.2
  have hl' : ∀ n, r.Like { r' with steps := n } := fun n => ⟨hl.trigger, hl.inprocess, hl.sort, hl.choice, hl.rounds⟩
  obtain ⟨a1, a2, a3⟩ := h.reset.1.sReduceStep (r := { r' with steps := 0 }) h.reset.2 ((hl' 0).valid hr).sort (e' 0)
  obtain ⟨t, m1, m2, m3, m4, -⟩ := a1.sMaterialize a3
  have hf := a2.trans m3
  have hnv : t.sol.db.nVars = s.sys.sol.db.nVars := hf.nVars
  have has : t.sol.trail.assumptions = s.sys.sol.trail.assumptions := hf.assumptions
  cases hE : t.sol.db.hasEmpty with
  | true =>
    refine ⟨N, (⟨{ s1.sys with sol := t.sol }, t.W⟩, some false), { r' with steps := 0 }, fun f hf => ?_, hl' 0, ?_, by simp⟩
    · unfold SSys.solveRoundL
      simp only [e f hf, m1, hE, if_true]
    · unfold SSys.solveRound
      simp only [e' 0, m1, hE, if_true]
  | false =>
    have hS : StInv False F (fun _ => False) t := m2.stinv m4 hE (by
      intro l hl
      simp only at hl ⊢
      rw [has] at hl; rw [hnv]; exact hb l hl)
    obtain ⟨t', b, e2, e3⟩ := sSearch_terminates
      (t.sol.db.nVars * (t.sol.db.nVars + 1) ^ (t.sol.db.nVars + 1) + 1)
      r.choice t _ hS hr.choice (by omega)
    refine ⟨max N (t.sol.db.nVars * (t.sol.db.nVars + 1) ^ (t.sol.db.nVars + 1) + 1),
      (⟨{ s1.sys with sol := t'.sol }, t'.W⟩, b),
      { r' with steps := t.sol.db.nVars * (t.sol.db.nVars + 1) ^ (t.sol.db.nVars + 1) + 1 }, fun f hf => ?_, hl' _, ?_, e3⟩
    · unfold SSys.solveRoundL
      simp only [e f (by omega), m1, hE]
      have := sSearch_mono _ f r.choice t _ (by omega) e2
      simp only [this, Option.map_some, Bool.false_eq_true, if_false]
    · unfold SSys.solveRound
      have e2' := e2
      rw [← hl.choice] at e2'
      simp only [e' _, m1, hE, Bool.false_eq_true, if_false]
      rw [e2']
      rfl

theorem SRoundInv.loopL_ends (cfg : Config) : ∀ (rs : List RoundL) (s : SSys), SRoundInv F s →
    (∀ r ∈ rs, r.Valid) → (∀ l ∈ s.sys.sol.trail.assumptions, l.var < s.sys.sol.db.nVars) →
    s.sys.sol.conflict = [] →
    ∃ N x rs', (∀ f, N ≤ f → SSys.solveLoopL cfg f rs s = some x) ∧ SSys.solveLoop cfg rs' s = some x ∧
      (∀ r' ∈ rs', ∃ r ∈ rs, r.Like r') ∧
      ((∃ r ∈ rs, ∀ i, (r.choice i).restart = false) → x.2 ≠ none)
  | [], s, _, _, _, _ => ⟨0, (s, none), [], fun _ _ => rfl, rfl, by simp, by simp⟩
  | r :: rs, s, h, hr, hb, hcf => by
    obtain ⟨N, ⟨s1, b⟩, r', e, hl, e', w⟩ := h.roundL_ends cfg (hr r (by simp)) hb
    obtain ⟨a1, a4, a5, a6, _⟩ := sSolveRound_sound h (hl.valid (hr r (by simp))) hb hcf e'
    cases b with
    | some b =>
      refine ⟨N, (s1, some b), [r'], fun f hf => ?_, ?_, ?_, by simp⟩
      · rw [SSys.solveLoopL, e f hf]
      · rw [SSys.solveLoop, e']
      · intro q hq
        simp only [List.mem_singleton] at hq
        subst hq
        exact ⟨r, by simp, hl⟩
    | none =>
      obtain ⟨N2, x, rs', e2, e2', hl2, w2⟩ := SRoundInv.loopL_ends cfg rs s1 a1
        (fun q hq => hr q (by simp [hq])) (by rw [a5, a4]; exact hb) (a6 (by simp))
      refine ⟨max N N2, x, r' :: rs', fun f hf => ?_, ?_, ?_, ?_⟩
      · rw [SSys.solveLoopL, e f (by omega)]
        exact e2 f (by omega)
      · rw [SSys.solveLoop, e']
        exact e2'
      · intro q hq
        rcases List.mem_cons.1 hq with rfl | hq
        · exact ⟨r, by simp, hl⟩
        · obtain ⟨r0, k1, k2⟩ := hl2 q hq
          exact ⟨r0, by simp [k1], k2⟩
      · rintro ⟨q, hq, hqr⟩
        rcases List.mem_cons.1 hq with rfl | hq
        · exact (w hqr rfl).elim
        · exact w2 ⟨q, hq, hqr⟩

theorem sSolveL_ends {s : SSys} (h : SysOk F s.sys) (hnw : s.sys.sol.watch = noWatch) (hve : VENe s.sys.ve) (cfg : Config)
    (pre : SimpInput) (hp : pre.Valid) (rounds : List RoundL) (hr : ∀ r ∈ rounds, r.Valid)
    (hb : ∀ l ∈ s.sys.sol.trail.assumptions, l.var < s.sys.sol.db.nVars) :
    ∃ N x Rs rs', (∀ f, N ≤ f → s.solveL cfg f pre rounds = some x) ∧ s.solve cfg Rs rs' = some x ∧
      (∀ R ∈ Rs, ∃ k, R.before = (pre.rounds k).before ∧ R.order = (pre.rounds k).order) ∧
      (∀ r' ∈ rs', ∃ r ∈ rounds, r.Like r') ∧
      ((∃ r ∈ rounds, ∀ i, (r.choice i).restart = false) → x.2.status ≠ none) := by
  obtain ⟨p1, p2, p3, p4, p5⟩ := sSolveStart_sound h hnw
  have hv0 := hve.sSolveStart
  have key : ∃ N s1 Rs, (∀ f, N ≤ f → s.solveEntryL cfg f pre = some s1) ∧ s.solveEntry cfg Rs = some s1 ∧
      (∀ R ∈ Rs, ∃ k, R.before = (pre.rounds k).before ∧ R.order = (pre.rounds k).order) ∧ VENe s1.sys.ve := by
    unfold SSys.solveEntry SSys.solveEntryL
    dsimp only
    cases cfg.preprocessing with
    | false => exact ⟨0, _, [], fun _ _ => rfl, rfl, by simp, hv0⟩
    | true =>
      obtain ⟨N, s1, Rs, e1, e2, -, e4⟩ := p1.sProcessLoop_ends cfg pre.term pre.rounds hp p2.w
      refine ⟨N, ⟨s1.sys, SW.reset s1.sys.sol.db⟩, Rs,
        fun f hf => by simp only [if_true, e1 f hf, Option.map_some], ?_, e4, ?_⟩
      · simp only [if_true, e2, Option.map_some]
      · show VENe s1.sys.ve
        exact p1.sProcess_ve p2.w e2 hv0
  obtain ⟨N, s1, Rs, e, e', hRs, v⟩ := key
  obtain ⟨k1, k2, k3, k4⟩ := sSolveEntry_sound h hnw e'
  have key2 : ∃ M x rs', (∀ f, M ≤ f → (if s1.sys.sol.db.hasEmpty then some (s1, some false)
      else SSys.solveLoopL cfg f rounds s1) = some x) ∧ (if s1.sys.sol.db.hasEmpty then some (s1, some false)
      else SSys.solveLoop cfg rs' s1) = some x ∧ VENe x.1.sys.ve ∧ (∀ r' ∈ rs', ∃ r ∈ rounds, r.Like r') ∧
      ((∃ r ∈ rounds, ∀ i, (r.choice i).restart = false) → x.2 ≠ none) := by
    cases hE : s1.sys.sol.db.hasEmpty with
    | true => exact ⟨0, (s1, some false), [], fun _ _ => by simp, by simp, v, by simp, by simp⟩
    | false =>
      obtain ⟨M, x, rs', e2, e2', hl, w2⟩ := k1.loopL_ends cfg rounds s1 hr (by rw [k3, k2]; exact hb) k4
      have hval : ∀ r' ∈ rs', r'.Valid := by
        intro r' h'
        obtain ⟨r, h1, h2⟩ := hl r' h'
        exact h2.valid (hr r h1)
      exact ⟨M, x, rs', fun f hf => by simpa using e2 f hf, by simpa using e2',
        sSolveLoop_ve rs' s1 k1 hval (by rw [k3, k2]; exact hb) k4 v x.1 x.2 e2', hl, w2⟩
  obtain ⟨M, ⟨s2, st⟩, rs', e2, e2', v2, hl, w2⟩ := key2
  obtain ⟨y, e3, v3, w3⟩ := solveEnd_total st v2
  refine ⟨max N M, (⟨y.1, s2.W⟩, y.2), Rs, rs', fun f hf => ?_, ?_, hRs, hl, fun hh => by simp only; rw [w3]; exact w2 hh⟩
  · unfold SSys.solveL
    rw [e f (by omega)]
    simp only
    rw [e2 f (by omega)]
    simp only [e3, Option.map_some]
  · unfold SSys.solve
    rw [e']
    simp only
    rw [e2']
    simp only [e3, Option.map_some]

/-! ### More fuel -/

theorem sLoopN_mono {cfg : Config} {term : Nat → Bool} {rs : Nat → SimpRound} : ∀ (f f' k num max : Nat) (p q : SProc),
    f ≤ f' → SProc.loopN cfg term rs f k num max p = some q → SProc.loopN cfg term rs f' k num max p = some q
  | 0, _, _, _, _, _, _, _, h => by simp [SProc.loopN] at h
  | f + 1, 0, _, _, _, _, _, hf, _ => by omega
  | f + 1, f' + 1, k, num, max, p, q, hf, h => by
    rw [SProc.loopN] at h ⊢
    split at h
    · rename_i hc
      rw [if_pos hc]
      split at h
      · simp at h
      · exact h
      · exact sLoopN_mono f f' _ _ _ _ q (by omega) h
    · rename_i hc
      rw [if_neg hc]
      exact h

theorem sProcessLoop_mono {cfg : Config} {term : Nat → Bool} {rs : Nat → SimpRound} {f f' : Nat} {s s' : SSys}
    (hf : f ≤ f') (h : s.processLoop cfg term rs f = some s') : s.processLoop cfg term rs f' = some s' := by
  unfold SSys.processLoop at h ⊢
  obtain ⟨p, hp, rfl⟩ := Option.map_eq_some_iff.1 h
  simp only [sLoopN_mono f f' _ _ _ _ p hf hp, Option.map_some]

theorem sReduceStepL_mono {cfg : Config} {r : RoundL} {f f' : Nat} {s s' : SSys}
    (hf : f ≤ f') (h : s.reduceStepL cfg f r = some s') : s.reduceStepL cfg f' r = some s' := by
  obtain ⟨tr, inp, sort, choice⟩ := r
  cases tr with
  | false => exact h
  | true =>
    cases inp with
    | none => exact h
    | some i =>
      simp only [SSys.reduceStepL, if_true] at h ⊢
      obtain ⟨s, hs, e⟩ := Option.map_eq_some_iff.1 h
      rw [sProcessLoop_mono hf hs]
      exact congrArg some e

theorem sSolveRoundL_mono {cfg : Config} {r : RoundL} {f f' : Nat} {s : SSys} {x : SSys × Option Bool}
    (hf : f ≤ f') (h : s.solveRoundL cfg f r = some x) : s.solveRoundL cfg f' r = some x := by
  unfold SSys.solveRoundL at h ⊢
  dsimp only at h ⊢
  split at h
  · simp at h
  · rename_i s1 e1
    rw [sReduceStepL_mono hf e1]
    split at h
    · simp at h
    · rename_i s2 e2
      simp only [e2]
      split at h
      · rename_i hE
        rw [if_pos hE]
        exact h
      · rename_i hE
        rw [if_neg hE]
        obtain ⟨y, hy, e⟩ := Option.map_eq_some_iff.1 h
        rw [sSearch_mono f f' _ _ y hf hy]
        exact congrArg some e

theorem sSolveLoopL_mono {cfg : Config} {f f' : Nat} (hf : f ≤ f') : ∀ (rs : List RoundL) (s : SSys)
    (x : SSys × Option Bool), SSys.solveLoopL cfg f rs s = some x → SSys.solveLoopL cfg f' rs s = some x
  | [], _, _, h => h
  | r :: rs, s, x, h => by
    rw [SSys.solveLoopL] at h ⊢
    split at h
    · simp at h
    · rename_i s1 e1
      rw [sSolveRoundL_mono hf e1]
      exact sSolveLoopL_mono hf rs _ x h
    · rename_i s1 b e1
      rw [sSolveRoundL_mono hf e1]
      exact h

theorem sSolveL_mono {cfg : Config} {f f' : Nat} {pre : SimpInput} {rounds : List RoundL} {s : SSys} {x : SSys × Result}
    (hf : f ≤ f') (h : s.solveL cfg f pre rounds = some x) : s.solveL cfg f' pre rounds = some x := by
  unfold SSys.solveL at h ⊢
  split at h
  · simp at h
  rename_i s1 e1
  have e1' : s.solveEntryL cfg f' pre = some s1 := by
    unfold SSys.solveEntryL at e1 ⊢
    dsimp only at e1 ⊢
    split at e1
    · rename_i hp
      rw [if_pos hp]
      obtain ⟨s, hs, e⟩ := Option.map_eq_some_iff.1 e1
      rw [sProcessLoop_mono hf hs]
      exact congrArg some e
    · rename_i hp
      rw [if_neg hp]
      exact e1
  rw [e1']
  simp only
  split at h
  · simp at h
  rename_i s2 st e2
  have e2' : (if s1.sys.sol.db.hasEmpty then some (s1, some false) else SSys.solveLoopL cfg f' rounds s1) = some (s2, st) := by
    split at e2
    · rename_i hE
      rw [if_pos hE]
      exact e2
    · rename_i hE
      rw [if_neg hE]
      exact sSolveLoopL_mono hf rounds s1 _ e2
  rw [e2']
  exact h

/-- Every defined call is one of `solve`. -/
theorem sSolveL_solve {s : SSys} (h : SysOk F s.sys) (hnw : s.sys.sol.watch = noWatch) (hve : VENe s.sys.ve) {cfg : Config}
    {f : Nat} {pre : SimpInput} (hp : pre.Valid) {rounds : List RoundL} (hr : ∀ r ∈ rounds, r.Valid)
    (hb : ∀ l ∈ s.sys.sol.trail.assumptions, l.var < s.sys.sol.db.nVars) {x : SSys × Result}
    (hs : s.solveL cfg f pre rounds = some x) :
    ∃ Rs rs', s.solve cfg Rs rs' = some x ∧
      (∀ R ∈ Rs, ∃ k, R.before = (pre.rounds k).before ∧ R.order = (pre.rounds k).order) ∧
      (∀ r' ∈ rs', ∃ r ∈ rounds, r.Like r') := by
  obtain ⟨N, y, Rs, rs', h1, h2, h3, h4, -⟩ := sSolveL_ends h hnw hve cfg pre hp rounds hr hb
  have e := (sSolveL_mono (Nat.le_max_left f N) hs).symm.trans (h1 (max f N) (Nat.le_max_right _ _))
  simp only [Option.some.injEq] at e
  exact ⟨Rs, rs', by rw [e]; exact h2, h3, h4⟩

end Candy
